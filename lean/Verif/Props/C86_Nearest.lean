import Verif.Spec.Traced
import Verif.Props.C86_Scene
/-
  Scenes of triangles whose queries are answered by the nearest intersection meet the requirements on intersections.
-/
namespace LM.Transport
open MeasureTheory LM LM.Surface LM.Material LM.Light LM.MathF LM.Path LM.Render LM.Solid Set
open scoped ENNReal

theorem measurable_cross3 {α : Type} [MeasurableSpace α] {F G : α → V3 ℝ} (hF : Measurable F) (hG : Measurable G) : Measurable fun a => V3.cross (F a) (G a) := by
  have fx := measurable_x.comp hF
  have fy := measurable_y.comp hF
  have fz := measurable_z.comp hF
  have gx := measurable_x.comp hG
  have gy := measurable_y.comp hG
  have gz := measurable_z.comp hG
  exact measurable_mk (f := fun a => V3.cross (F a) (G a)) ((fy.mul gz).sub (gy.mul fz)) ((fz.mul gx).sub (gz.mul fx)) ((fx.mul gy).sub (gx.mul fy))

/-- The distance to the plane of the triangle. -/
noncomputable def reachAt (t : Tri) (q : V3 ℝ × V3 ℝ) : ℝ := V3.dot (triCross t) (t.a - q.1) / V3.dot (triCross t) q.2

theorem measurable_reachAt (t : Tri) : Measurable (reachAt t) :=
  (measurable_dot3 measurable_const (measurable_sub3' measurable_const measurable_fst)).div (measurable_dot3 measurable_const measurable_snd)

theorem measurable_hit (t : Tri) : Measurable fun q : V3 ℝ × V3 ℝ => hitPoint t q.1 q.2 :=
  measurable_add3 measurable_fst (measurable_smul3 (measurable_reachAt t) measurable_snd)

theorem measurable_seen' (t : Tri) : MeasurableSet {q : V3 ℝ × V3 ℝ | q.2 ∈ LM.Solid.seen t q.1} := by
  have h1 : Measurable fun q : V3 ℝ × V3 ℝ => t.a - q.1 := measurable_sub3' measurable_const measurable_fst
  have h2 : Measurable fun q : V3 ℝ × V3 ℝ => V3.dot (triCross t) q.2 := measurable_dot3 measurable_const measurable_snd
  have hc : Measurable fun q : V3 ℝ × V3 ℝ => coords t q.1 q.2 :=
    ((measurable_dot3 (measurable_cross3 measurable_const h1) measurable_snd).div h2).prodMk ((measurable_dot3 (measurable_cross3 h1 measurable_const) measurable_snd).div h2)
  exact (measurableSet_lt measurable_const (h2.mul (measurable_dot3 measurable_const h1))).inter (hc measurableSet_simplex)

theorem crosses_iff {t : Tri} {o d : V3 ℝ} {s : ℝ} : Crosses t o d s ↔ d ∈ LM.Solid.seen t o ∧ s = reachAt t (o, d) := by
  constructor
  · rintro ⟨h0, hd, hi⟩
    refine ⟨(inside_hit h0 rfl hi hd).1, ?_⟩
    obtain ⟨q, _, e⟩ := hi
    have e1 : V3.dot (triCross t) (o + s • d - t.a) = 0 := by
      rw [e]; simp only [triCross, triAt, V3.dot, V3.cross, V3.add_x, V3.add_y, V3.add_z, V3.smul_x, V3.smul_y, V3.smul_z, V3.sub_x, V3.sub_y, V3.sub_z]; ring
    have e2 : V3.dot (triCross t) (o + s • d - t.a) = s * V3.dot (triCross t) d - V3.dot (triCross t) (t.a - o) := by
      simp only [V3.dot, V3.add_x, V3.add_y, V3.add_z, V3.smul_x, V3.smul_y, V3.smul_z, V3.sub_x, V3.sub_y, V3.sub_z]; ring
    rw [e2] at e1
    unfold reachAt
    rw [eq_div_iff hd]
    linarith
  · rintro ⟨hs, rfl⟩
    obtain ⟨hh, hD⟩ := seen_hit hs
    obtain ⟨q, hq, e⟩ := (hitPoint_spec t o d hD hh).choose_spec.2.2
    have hd : V3.dot (triCross t) d ≠ 0 := fun h => by have := hs.1; rw [h, zero_mul] at this; exact lt_irrefl _ this
    refine ⟨?_, hd, q, hq, e⟩
    have h1 := hs.1
    show 0 < V3.dot (triCross t) (t.a - o) / V3.dot (triCross t) d
    rw [← mul_div_mul_right _ _ hd, mul_comm (V3.dot (triCross t) (t.a - o))]
    exact div_pos h1 (by rw [← sq]; positivity)

theorem crosses_scale {t : Tri} {o d : V3 ℝ} {L r : ℝ} (hL : 0 < L) : Crosses t o (L • d) r ↔ Crosses t o d (r * L) := by
  unfold Crosses
  rw [smul_smul, V3.dot_smul_right, mul_pos_iff_of_pos_right hL]
  simp [hL.ne']

theorem crosses_back {t : Tri} {p q : V3 ℝ} {r : ℝ} (h : Crosses t p (q - p) r) (hr : r < 1) : Crosses t q (p - q) (1 - r) := by
  obtain ⟨h0, hd, hi⟩ := h
  refine ⟨by linarith, ?_, ?_⟩
  · rw [← neg_sub, V3.dot_neg_right]; exact neg_ne_zero.mpr hd
  · have : q + (1 - r) • (p - q) = p + r • (q - p) := by
      ext <;> simp only [V3.add_x, V3.add_y, V3.add_z, V3.smul_x, V3.smul_y, V3.smul_z, V3.sub_x, V3.sub_y, V3.sub_z] <;> ring
    rw [this]; exact hi

theorem Unblocked.symm {Fs : List (Int × Tri)} {p q : V3 ℝ} (h : Unblocked Fs p q) : Unblocked Fs q p := by
  intro g hg r hc
  by_contra hr
  have := h g hg _ (crosses_back hc (not_le.mp hr))
  linarith [hc.1]

variable {Q : Query} {Fs : List (Int × Tri)} {vertex : Int → V3 ℝ → SI}

/-- The rays that meet the triangle first. -/
def firstOn (Fs : List (Int × Tri)) (t : Tri) : Set (V3 ℝ × V3 ℝ) := {q | V3.dot q.2 q.2 = 1 ∧ q.2 ∈ LM.Solid.seen t q.1 ∧ ∀ g ∈ Fs, q.2 ∈ LM.Solid.seen g.2 q.1 → reachAt t q ≤ reachAt g.2 q}

theorem measurable_firstOn (t : Tri) : MeasurableSet (firstOn Fs t) := by
  refine (measurableSet_eq_fun (measurable_dot3 measurable_snd measurable_snd) measurable_const).inter ((measurable_seen' t).inter ?_)
  have : {q : V3 ℝ × V3 ℝ | ∀ g ∈ Fs, q.2 ∈ LM.Solid.seen g.2 q.1 → reachAt t q ≤ reachAt g.2 q} = ⋂ g ∈ {g | g ∈ Fs}, ({q : V3 ℝ × V3 ℝ | q.2 ∈ LM.Solid.seen g.2 q.1}ᶜ ∪ {q | reachAt t q ≤ reachAt g.2 q}) := by
    ext q
    simp only [mem_ofPred_eq, mem_iInter, mem_union, mem_compl_iff, imp_iff_not_or]
  show MeasurableSet {q : V3 ℝ × V3 ℝ | ∀ g ∈ Fs, q.2 ∈ LM.Solid.seen g.2 q.1 → reachAt t q ≤ reachAt g.2 q}
  rw [this]
  exact MeasurableSet.biInter (List.finite_toSet Fs).countable fun g _ => (measurable_seen' g.2).compl.union (measurableSet_le (measurable_reachAt t) (measurable_reachAt g.2))

theorem Traced.hit_iff (h : Traced Q Fs vertex) (hv : ∀ j p, (vertex j p).primitive = j ∧ (vertex j p).geom.p = p) (o d : V3 ℝ) (j : Int) (p : V3 ℝ) :
    hitOf Q o d = some (j, p) ↔ ∃ f ∈ Fs, f.1 = j ∧ (o, d) ∈ firstOn Fs f.2 ∧ p = hitPoint f.2 o d := by
  unfold hitOf
  rw [Option.map_eq_some_iff]
  constructor
  · rintro ⟨hit, e, he⟩
    obtain ⟨hd, f, hf, s, hc, rfl, hmin⟩ := (h.isect o d hit).mp e
    rw [(hv _ _).1, (hv _ _).2] at he
    obtain ⟨hs, rfl⟩ := crosses_iff.mp hc
    refine ⟨f, hf, (Prod.mk.inj he).1, ⟨hd, hs, fun g hg hgs => hmin g hg _ (crosses_iff.mpr ⟨hgs, rfl⟩)⟩, (Prod.mk.inj he).2.symm⟩
  · rintro ⟨f, hf, rfl, ⟨hd, hs, hmin⟩, rfl⟩
    refine ⟨vertex f.1 (hitPoint f.2 o d), (h.isect o d _).mpr ⟨hd, f, hf, reachAt f.2 (o, d), crosses_iff.mpr ⟨hs, rfl⟩, rfl, fun g hg r hc => ?_⟩, by rw [(hv _ _).1, (hv _ _).2]⟩
    obtain ⟨hgs, rfl⟩ := crosses_iff.mp hc
    exact hmin g hg hgs

/-- A point that is not seen edge-on is what is met in its direction, if nothing is in between. -/
theorem Traced.sees_iff (h : Traced Q Fs vertex) (hv : ∀ j p, (vertex j p).primitive = j ∧ (vertex j p).geom.p = p) {f : Int × Tri} (hf : f ∈ Fs) {x p : V3 ℝ} (hi : Inside f.2 p) (hd : V3.dot (triCross f.2) (p - x) ≠ 0) :
    Sees Q x f.1 p ↔ Unblocked Fs x p := by
  have hpos := dot_pos_of_ne hd
  obtain ⟨hun, he⟩ := dirOf_spec hpos
  have hL : 0 < Real.sqrt (V3.dot (p - x) (p - x)) := Real.sqrt_pos.mpr hpos
  generalize hdd : dirOf (p - x) = d at *
  generalize Real.sqrt (V3.dot (p - x) (p - x)) = L at *
  have hp : x + L • d = p := by rw [← he]; abel
  unfold Sees
  rw [hdd]
  constructor
  · intro hs g hg r hc
    obtain ⟨hit, e, e2⟩ := Option.map_eq_some_iff.mp hs
    obtain ⟨_, f', hf', s, hc', rfl, hmin⟩ := (h.isect x d hit).mp e
    have e3 := (Prod.mk.inj e2).2
    rw [(hv _ _).2, ← hp] at e3
    have hsL : s = L := by
      have h1 : V3.dot d (x + s • d) = V3.dot d (x + L • d) := by rw [e3]
      have h2 : ∀ r : ℝ, V3.dot d (x + r • d) = V3.dot d x + r * V3.dot d d := fun r => by simp [V3.dot]; ring
      rw [h2, h2, hun] at h1; linarith
    rw [he, crosses_scale hL] at hc
    have := hmin g hg _ hc
    rw [hsL] at this
    by_contra hlt
    nlinarith [not_le.mp hlt]
  · intro hu
    refine Option.map_eq_some_iff.mpr ⟨vertex f.1 p, (h.isect x d _).mpr ⟨hun, f, hf, L, ⟨hL, ?_, by rw [hp]; exact hi⟩, by rw [hp], fun g hg r hc => ?_⟩, by rw [(hv _ _).1, (hv _ _).2]⟩
    · intro h0; rw [he, V3.dot_smul_right, h0, mul_zero] at hd; exact hd rfl
    · have hc' : Crosses g.2 x (p - x) (r / L) := by rw [he, crosses_scale hL, div_mul_cancel₀ _ hL.ne']; exact hc
      have := hu g hg _ hc'
      rwa [le_div_iff₀ hL, one_mul] at this

theorem pick_point (A : Tri → Set (V3 ℝ × V3 ℝ)) (hA : ∀ t, MeasurableSet (A t)) (l : List (Int × Tri)) : ∃ P : V3 ℝ × V3 ℝ → V3 ℝ, Measurable P ∧ ∀ q, ∀ f ∈ l, q ∈ A f.2 → ∃ g ∈ l, q ∈ A g.2 ∧ P q = hitPoint g.2 q.1 q.2 := by
  classical
  induction l with
  | nil => exact ⟨fun _ => 0, measurable_const, fun _ f hf => absurd hf List.not_mem_nil⟩
  | cons a l ih =>
    obtain ⟨P, hP, h⟩ := ih
    refine ⟨fun q => if q ∈ A a.2 then hitPoint a.2 q.1 q.2 else P q, Measurable.ite (hA a.2) (measurable_hit a.2) hP, fun q f hf hq => ?_⟩
    by_cases hqa : q ∈ A a.2
    · exact ⟨a, List.mem_cons_self, hqa, if_pos hqa⟩
    · rcases List.mem_cons.mp hf with rfl | hf
      · exact absurd hq hqa
      · obtain ⟨g, hg, hgq, e⟩ := h q f hf hq
        exact ⟨g, List.mem_cons_of_mem _ hg, hgq, by rw [← e]; exact if_neg hqa⟩

/-- The queries of a scene of separate triangles meet the requirements on intersections. -/
theorem Traced.faceted (h : Traced Q Fs vertex) (hsep : Separate Fs) (hv : ∀ j p, (vertex j p).primitive = j ∧ (vertex j p).geom.p = p ∧ (vertex j p).geom.infinite = false ∧ (vertex j p).geom.degenerated = false)
    (hn : ∀ f ∈ Fs, ∀ p, Inside f.2 p → (vertex f.1 p).geom.gn = dirOf (triCross f.2) ∨ (vertex f.1 p).geom.gn = -dirOf (triCross f.2)) (hgn : ∀ j, Measurable fun p => (vertex j p).geom.gn) : Faceted Q Fs vertex := by
  have hv' : ∀ j p, (vertex j p).primitive = j ∧ (vertex j p).geom.p = p := fun j p => ⟨(hv j p).1, (hv j p).2.1⟩
  refine ⟨hsep.area, hv, hn, ?_, ?_, ?_, ?_, ?_, ?_, hgn⟩
  · intro o d hit _ e
    obtain ⟨_, f, _, s, _, rfl, _⟩ := (h.isect o d hit).mp e
    rw [(hv' _ _).1, (hv' _ _).2]
  · intro o d hit _ e
    obtain ⟨_, f, _, s, hc, rfl, _⟩ := (h.isect o d hit).mp e
    exact ⟨s, hc.1, (hv' _ _).2⟩
  · refine fun o => Filter.Eventually.of_forall fun d hit e => ?_
    obtain ⟨_, f, hf, s, hc, rfl, _⟩ := (h.isect o d hit).mp e
    rw [(hv' _ _).1, (hv' _ _).2]
    obtain ⟨k, hk⟩ := List.getElem?_of_mem hf
    exact ⟨k, f.2, hk, hc.2.2, fun k' t' hk' hi' => hsep.apart k' k _ _ _ hk' hk hi' hc.2.2⟩
  · intro s hs t ht p q hp hq h1 h2
    have e1 := h.sees_iff hv' ht hq h2
    have e2 := h.sees_iff hv' hs (x := q) hp (by rw [← neg_sub, V3.dot_neg_right]; exact neg_ne_zero.mpr h1)
    exact e1.trans (Iff.trans ⟨Unblocked.symm, Unblocked.symm⟩ e2.symm)
  · intro j
    have : {q : V3 ℝ × V3 ℝ | ∃ p, hitOf Q q.1 q.2 = some (j, p)} = ⋃ f ∈ {f | f ∈ Fs ∧ f.1 = j}, firstOn Fs f.2 := by
      ext q
      simp only [mem_ofPred_eq, mem_iUnion, h.hit_iff hv']
      constructor
      · rintro ⟨p, f, hf, e, hq, _⟩; exact ⟨f, ⟨hf, e⟩, hq⟩
      · rintro ⟨f, ⟨hf, e⟩, hq⟩; exact ⟨_, f, hf, e, hq, rfl⟩
    rw [this]
    exact MeasurableSet.biUnion ((List.finite_toSet Fs).subset fun f hf => hf.1).countable fun f _ => measurable_firstOn f.2
  · intro j
    obtain ⟨P, hP, hPe⟩ := pick_point (firstOn Fs) measurable_firstOn Fs
    refine ⟨P, hP, fun q p e => ?_⟩
    obtain ⟨f, hf, _, hq, rfl⟩ := (h.hit_iff hv' _ _ _ _).mp e
    obtain ⟨g, hg, hgq, e2⟩ := hPe q f hf hq
    rw [e2]
    have : reachAt f.2 q = reachAt g.2 q := le_antisymm (hq.2.2 g hg hgq.2.1) (hgq.2.2 f hf hq.2.1)
    show q.1 + reachAt f.2 q • q.2 = q.1 + reachAt g.2 q • q.2
    rw [this]

end LM.Transport
