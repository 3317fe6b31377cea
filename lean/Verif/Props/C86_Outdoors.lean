import Verif.Props.C82_Outdoors
import Verif.Props.C86_Sky
import Verif.Props.C86_Sun
import Verif.Spec.Lights
/-
  C86 and C100 in scenes of separate triangles with lights of all kinds.
-/
namespace LM.Transport
open MeasureTheory LM LM.Surface LM.Material LM.Light LM.MathF LM.Path LM.Render LM.Solid Set
open scoped ENNReal

section geometry

variable {Q : Query} {Fs : List (Int × Tri)} {vertex : Int → V3 ℝ → SI}

theorem dot_sq_le (w : V3 ℝ) {d : V3 ℝ} (hd : V3.dot d d = 1) : V3.dot w d * V3.dot w d ≤ V3.dot w w := by
  have h1 : V3.dot w w = V3.dot w w * V3.dot d d := by rw [hd, mul_one]
  rw [h1]
  simp only [V3.dot]
  nlinarith [sq_nonneg (w.x * d.y - w.y * d.x), sq_nonneg (w.y * d.z - w.z * d.y), sq_nonneg (w.z * d.x - w.x * d.z)]

/-- A point of the sphere is in front of the disk. -/
theorem before_disk {w d : V3 ℝ} {r : ℝ} (hd : V3.dot d d = 1) (hr : 0 < r) (hw : V3.dot w w < r * r) : 0 < V3.dot w d + r := by
  have := dot_sq_le w hd
  by_contra hc
  nlinarith [not_lt.mp hc]

/-- The ray through p in direction d meets p first, if nothing is behind p in the direction where the ray comes from. -/
theorem Traced.back (h : Traced Q Fs vertex) (hv : ∀ j p, (vertex j p).primitive = j ∧ (vertex j p).geom.p = p) {g : Int × Tri} (hg : g ∈ Fs) {p d : V3 ℝ} (hi : Inside g.2 p) (hd : V3.dot d d = 1) (hg0 : V3.dot (triCross g.2) d ≠ 0) {s : ℝ} (hs : 0 < s)
    (hw : ∀ f ∈ Fs, ∀ u, Inside f.2 (p + u • (-d)) → u < s) : hitOf Q (p - s • d) d = some (g.1, p) ↔ Passes Fs p (-d) := by
  have hadd : ∀ r : ℝ, p - s • d + r • d = p + (s - r) • (-d) := fun r => by
    rw [smul_neg, sub_smul]; abel
  have hneg : ∀ t : Tri, V3.dot (triCross t) (-d) = - V3.dot (triCross t) d := fun t => V3.dot_neg_right _ _
  constructor
  · intro e f hf u hc
    obtain ⟨hit, e1, e2⟩ := Option.map_eq_some_iff.mp e
    obtain ⟨_, f', hf', r, hc', rfl, hmin⟩ := (h.isect _ d hit).mp e1
    have e3 := (Prod.mk.inj e2).2
    rw [(hv _ _).2, hadd] at e3
    have hrs : s = r := by
      have h1 : V3.dot d (p + (s - r) • (-d)) = V3.dot d p := by rw [e3]
      have h2 : V3.dot d (p + (s - r) • (-d)) = V3.dot d p - (s - r) * V3.dot d d := by simp [V3.dot]; ring
      rw [h2, hd] at h1; linarith
    subst hrs
    have hus := hw f hf u hc.2.2
    have := hmin f hf (s - u) ⟨by linarith, fun h0 => hc.2.1 (by rw [hneg, h0, neg_zero]), by rw [hadd, sub_sub_cancel]; exact hc.2.2⟩
    linarith [hc.1]
  · intro hp
    have hp' : p - s • d + s • d = p := by abel
    refine Option.map_eq_some_iff.mpr ⟨vertex g.1 p, (h.isect _ d _).mpr ⟨hd, g, hg, s, ⟨hs, hg0, by rw [hp']; exact hi⟩, by rw [hp'], fun f hf r hc => ?_⟩, by rw [(hv _ _).1, (hv _ _).2]⟩
    by_contra hlt
    exact hp f hf (s - r) ⟨by linarith [not_le.mp hlt], by rw [hneg]; exact neg_ne_zero.mpr hc.2.1, by rw [← hadd]; exact hc.2.2⟩

theorem Traced.none_iff (h : Traced Q Fs vertex) {o d : V3 ℝ} (hd : V3.dot d d = 1) : hitOf Q o d = none ↔ Passes Fs o d := by
  have hh : hitOf Q o d = none ↔ Q.isect o d = none := by simp [hitOf]
  rw [hh]
  constructor
  · intro e f hf s hx
    obtain ⟨h', hh⟩ := firstHit_exists vertex hf hx
    rw [(h.isect o d h').mpr ⟨hd, hh⟩] at e; cases e
  · intro hc
    cases e3 : Q.isect o d with
    | none => rfl
    | some h' =>
      obtain ⟨_, f, hf, s, hx, _⟩ := (h.isect o d h').mp e3
      exact absurd hx (hc f hf s)

/-- Rays of any direction sweep the triangles. -/
theorem Traced.swept (h : Traced Q Fs vertex) (hsep : Separate Fs) (hv : ∀ j p, (vertex j p).primitive = j ∧ (vertex j p).geom.p = p) {c d : V3 ℝ} {r : ℝ} (hr : 0 < r) (hd : V3.dot d d = 1)
    (hw : ∀ f ∈ Fs, ∀ p, Inside f.2 p → V3.dot (p - c) (p - c) < r * r) : Swept Q Fs d c r where
  unit := hd
  pos := hr
  within g hg p hi := (hw g hg p hi).le
  once u v _ := Filter.Eventually.of_forall fun q hit e => by
    obtain ⟨_, f, hf, s, hc, rfl, _⟩ := (h.isect _ d hit).mp e
    obtain ⟨k, hk⟩ := List.getElem?_of_mem hf
    rw [(hv _ _).1, (hv _ _).2]
    exact ⟨k, f.2, hk, hc.2.2, hc.2.1, fun k' t' hk' hi' => hsep.apart k' k _ _ _ hk' hk hi' hc.2.2⟩

theorem Traced.backIn (h : Traced Q Fs vertex) (hv : ∀ j p, (vertex j p).primitive = j ∧ (vertex j p).geom.p = p) {c d : V3 ℝ} {r : ℝ} (hr : 0 < r) (hd : V3.dot d d = 1)
    (hw : ∀ f ∈ Fs, ∀ p, Inside f.2 p → V3.dot (p - c) (p - c) < r * r) {g : Int × Tri} (hg : g ∈ Fs) {p : V3 ℝ} (hi : Inside g.2 p) (hg0 : V3.dot (triCross g.2) d ≠ 0) :
    hitOf Q (p - (V3.dot (p - c) d + r) • d) d = some (g.1, p) ↔ Passes Fs p (-d) :=
  h.back hv hg hi hd hg0 (before_disk hd hr (hw g hg p hi)) fun f hf u hu => by
    have h1 := before_disk hd hr (hw f hf _ hu)
    have h2 : V3.dot (p + u • (-d) - c) d = V3.dot (p - c) d - u * V3.dot d d := by simp [V3.dot]; ring
    rw [h2, hd] at h1
    linarith

theorem Traced.skyLamp (h : Traced Q Fs vertex) (hsep : Separate Fs) (hv : ∀ j p, (vertex j p).primitive = j ∧ (vertex j p).geom.p = p) {E : V3 ℝ → V3 ℝ} {sgn : V3 ℝ → Bool} {c : V3 ℝ} {r : ℝ} (hr : 0 < r)
    (hw : ∀ f ∈ Fs, ∀ p, Inside f.2 p → V3.dot (p - c) (p - c) < r * r) (hE : ∀ d, V3.dot d d = 1 → NonNeg (E d)) (hm : ∀ i, Measurable fun d => chan i (E d)) (hs : MeasurableSet {d | sgn d = true}) : SkyLamp Q Fs E sgn c r where
  nonneg := hE
  measurable := hm
  pos := hr
  swept := solidAngle_unit.mono fun d hd => h.swept hsep hv hr hd hw
  seen g hg := by
    have hn : triCross g.2 ≠ 0 := by
      intro e
      have := hsep.area g hg
      unfold twiceArea at this
      rw [e] at this
      simp [V3.dot] at this
    filter_upwards [inside_ae g.2] with p hi
    filter_upwards [solidAngle_unit, grazing_null hn] with d hd hg0
    have hdn : V3.dot (-d) (-d) = 1 := by simpa [V3.dot] using hd
    rw [h.backIn hv hr hd hw hg hi (by rw [V3.dot_comm]; exact hg0), h.none_iff hdn]
  sign := hs

theorem measurable_passes (Fs : List (Int × Tri)) (d : V3 ℝ) : MeasurableSet {x | Passes Fs x d} := by
  have e : {x | Passes Fs x d} = ⋂ f ∈ {f | f ∈ Fs}, {x | d ∈ LM.Solid.seen f.2 x}ᶜ := by
    ext x
    simp only [mem_ofPred_eq, mem_iInter, mem_compl_iff]
    constructor
    · intro h f hf hd
      exact h f hf _ (crosses_iff.mpr ⟨hd, rfl⟩)
    · intro h f hf s hc
      exact h f hf (crosses_iff.mp hc).1
  rw [e]
  exact MeasurableSet.biInter (List.finite_toSet Fs).countable fun f _ => (measurable_seen' f.2 |>.preimage (measurable_id.prodMk measurable_const)).compl

theorem measurable_unblocked (Fs : List (Int × Tri)) (q : V3 ℝ) : MeasurableSet {x | Unblocked Fs x q} := by
  have e : {x | Unblocked Fs x q} = ⋂ f ∈ {f | f ∈ Fs}, ({x | q - x ∈ LM.Solid.seen f.2 x}ᶜ ∪ {x | 1 ≤ reachAt f.2 (x, q - x)}) := by
    ext x
    simp only [mem_ofPred_eq, mem_iInter, mem_compl_iff, mem_union]
    constructor
    · intro h f hf
      by_cases hd : q - x ∈ LM.Solid.seen f.2 x
      · exact .inr (h f hf _ (crosses_iff.mpr ⟨hd, rfl⟩))
      · exact .inl hd
    · intro h f hf s hc
      obtain ⟨h1, rfl⟩ := crosses_iff.mp hc
      rcases h f hf with h2 | h2
      · exact absurd h1 h2
      · exact h2
  have hm : Measurable fun x : V3 ℝ => (x, q - x) := measurable_id.prodMk (measurable_sub3' measurable_const measurable_id)
  rw [e]
  exact MeasurableSet.biInter (List.finite_toSet Fs).countable fun f _ => ((measurable_seen' f.2).preimage hm).compl.union (measurableSet_le measurable_const ((measurable_reachAt f.2).comp hm))

theorem plane_const (t : Tri) {p o : V3 ℝ} (hi : Inside t p) : V3.dot (triCross t) (p - o) = V3.dot (triCross t) (t.a - o) := by
  obtain ⟨q, _, rfl⟩ := hi
  simp only [triCross, triAt, V3.dot, V3.cross, V3.add_x, V3.add_y, V3.add_z, V3.smul_x, V3.smul_y, V3.smul_z, V3.sub_x, V3.sub_y, V3.sub_z]; ring

theorem Traced.pointLamp (h : Traced Q Fs vertex) (hv : ∀ j p, (vertex j p).primitive = j ∧ (vertex j p).geom.p = p ∧ (vertex j p).geom.infinite = false ∧ (vertex j p).geom.degenerated = false) (node : Int) {I p junk : V3 ℝ} (hI : NonNeg I)
    (ha : ∀ f ∈ Fs, V3.dot (triCross f.2) (f.2.a - p) ≠ 0) : PointLamp Q Fs vertex node I p junk where
  nonneg := hI
  seen g hg := by
    filter_upwards [inside_ae g.2] with x hi
    rw [h.visible _ _ (hv _ _).2.2.1 rfl, h.sees_iff (fun j p => ⟨(hv j p).1, (hv j p).2.1⟩) hg hi (by rw [plane_const g.2 hi]; exact ha g hg), (hv _ _).2.1]
    exact ⟨Unblocked.symm, Unblocked.symm⟩
  measurable j := by
    have : {x | Q.visible (vertex j x) ⟨.light, node, makeDegenerated p junk⟩ = true} = {x | Unblocked Fs x p} := by
      ext x
      simp only [mem_ofPred_eq]
      rw [h.visible _ _ (hv _ _).2.2.1 rfl, (hv _ _).2.1]
      rfl
    rw [this]
    exact measurable_unblocked Fs p

theorem Traced.beamLamp (h : Traced Q Fs vertex) (hsep : Separate Fs) (hv : ∀ j p, (vertex j p).primitive = j ∧ (vertex j p).geom.p = p ∧ (vertex j p).geom.infinite = false ∧ (vertex j p).geom.degenerated = false)
    (hvis : ∀ s1 s2 : SI, s1.geom.infinite = false → s2.geom.infinite = true → V3.dot s2.geom.wo s2.geom.wo = 1 → (Q.visible s1 s2 = true ↔ Passes Fs s1.geom.p (-s2.geom.wo)))
    (node : Int) {E d junk c : V3 ℝ} {r : ℝ} (hE : NonNeg E) (hd : V3.dot d d = 1) (hr : 0 < r) (hw : ∀ f ∈ Fs, ∀ p, Inside f.2 p → V3.dot (p - c) (p - c) < r * r)
    (ha : ∀ f ∈ Fs, V3.dot (triCross f.2) d ≠ 0) : BeamLamp Q Fs vertex node E d junk c r := by
  have hv' : ∀ j p, (vertex j p).primitive = j ∧ (vertex j p).geom.p = p := fun j p => ⟨(hv j p).1, (hv j p).2.1⟩
  have hsw := h.swept hsep hv' hr hd hw
  refine ⟨hE, hd, hr, hsw.within, hsw.once, fun g hg => ?_, fun j => ?_⟩
  · filter_upwards [inside_ae g.2] with p hi
    rw [hvis _ _ (hv _ _).2.2.1 rfl hd, h.backIn hv' hr hd hw hg hi (ha g hg), (hv _ _).2.1]
    rfl
  · have : {x | Q.visible (vertex j x) ⟨.light, node, makeInfinite d junk junk⟩ = true} = {x | Passes Fs x (-d)} := by
      ext x
      simp only [mem_ofPred_eq]
      rw [hvis _ _ (hv _ _).2.2.1 rfl hd, (hv _ _).2.1]
      rfl
    rw [this]
    exact measurable_passes Fs (-d)

end geometry

/-! ### The lights -/

/-- The density of sampling a direction by sampling lights is measurable. -/
theorem measurable_lightPdf {W : World} {Q : Query} {node M Lt} (hT : LightTable W node M Lt) (sp : SI) (hs : ∀ j < W.st.lights.length, MeasurableSet {d | SeesSky Q (node j) sp.geom.p d})
    (hl : ∀ j < W.st.lights.length, ∃ p : V3 ℝ → ℝ, Measurable p ∧ ∀ d hit, V3.dot d d = 1 → Q.isect sp.geom.p d = some hit → hit.primitive = node j → (Lt j).pdfDirect sp.geom hit.geom (M j) (-d) true = some (p d))
    (hall : ∀ d h, Q.isect sp.geom.p d = some h → (W.lightAt h.primitive).isSome → ∃ j < W.st.lights.length, h.primitive = node j) : Measurable (lightPdf W Q sp) := by
  classical
  choose! p hpm hp using hl
  have hinj : ∀ j k, j < W.st.lights.length → k < W.st.lights.length → node j = node k → j = k := fun j k hj hk e => by
    have h1 := hT.index j hj
    have h2 := hT.index k hk
    rw [e, h2] at h1
    simpa using h1.symm
  have e : lightPdf W Q sp = fun d => ∑ j ∈ Finset.range W.st.lights.length, if d ∈ {d | SeesSky Q (node j) sp.geom.p d} ∩ {d | V3.dot d d = 1} then 1 / (W.st.lights.length : ℝ) * p j d else 0 := by
    funext d
    unfold lightPdf
    cases hi : Q.isect sp.geom.p d with
    | none =>
      rw [Finset.sum_eq_zero]
      intro j _
      rw [if_neg]
      rintro ⟨⟨h', e, _⟩, _⟩
      rw [hi] at e; cases e
    | some hit =>
      dsimp only
      cases hL : W.lightAt hit.primitive with
      | none =>
        rw [Finset.sum_eq_zero]
        intro j hj
        rw [if_neg]
        rintro ⟨⟨h', e, e2⟩, _⟩
        rw [hi] at e; cases e
        rw [e2, hT.light j (Finset.mem_range.mp hj)] at hL; cases hL
      | some L =>
        dsimp only
        obtain ⟨j, hj, hn⟩ := hall d hit hi (by rw [hL]; rfl)
        rw [Finset.sum_eq_single j]
        · by_cases hd : V3.dot d d = 1
          · have hpd : pdfDirect W sp (asLight hit) (-d) true = some (1 / (W.st.lights.length : ℝ) * p j d) := by
              have e1 : asLight hit = ⟨.light, node j, hit.geom⟩ := by simp only [asLight, ← hn]
              rw [e1]
              exact hT.pdf sp hit.geom (-d) j hj _ (hp j hj d hit hd hi hn)
            rw [hpd, if_pos (show d ∈ {d | SeesSky Q (node j) sp.geom.p d} ∩ {d | V3.dot d d = 1} from ⟨⟨hit, hi, hn⟩, hd⟩)]
            simp [hd]
          · rw [if_neg (fun hm : d ∈ {d | SeesSky Q (node j) sp.geom.p d} ∩ {d | V3.dot d d = 1} => hd hm.2)]
            cases pdfDirect W sp (asLight hit) (-d) true <;> simp [hd]
        · intro k hk hne
          rw [if_neg]
          rintro ⟨⟨h', e, e2⟩, _⟩
          rw [hi] at e; cases e
          exact hne (hinj k j (Finset.mem_range.mp hk) hj (by rw [← e2, hn]))
        · intro hn; exact absurd (Finset.mem_range.mpr hj) hn
  rw [e]
  refine Finset.measurable_fun_sum _ fun j hj => ?_
  have hj := Finset.mem_range.mp hj
  exact Measurable.ite ((hs j hj).inter (measurableSet_eq_fun measurable_dot measurable_const)) ((hpm j hj).const_mul _) measurable_const

variable {ps : List Part} {sgn : V3 ℝ → Bool} {junk : V3 ℝ} {W : World} {Q : Query} {n : Int} {cam : Camera} {sky : Option Int}
variable {node : ℕ → Int} {M : ℕ → Aff ℝ} {Lt : ℕ → Light} {src : ℕ → Source}

/-- What a ray meets. -/
theorem Surroundings.cases (h : Room W (indoors Q) n cam ps sgn junk) (hs : Surroundings Q (faces ps) sky) {o d : V3 ℝ} {hit : SI} (e : Q.isect o d = some hit) : V3.dot d d = 1 ∧
    (((indoors Q).isect o d = some hit ∧ hit.geom.infinite = false ∧ sky ≠ some hit.primitive) ∨
      (sky = some hit.primitive ∧ Passes (faces ps) o d ∧ hit.kind = .light ∧ hit.geom.infinite = true ∧ hit.geom.wo = -d)) := by
  cases hk : sky with
  | some s =>
    obtain ⟨hd, ⟨h1, h2, h3⟩ | ⟨_, h2, h3, h4, h5, h6⟩⟩ := (hs.under s hk).cases h e
    · exact ⟨hd, .inl ⟨h1, h2, fun e => h3 (Option.some.inj e).symm⟩⟩
    · exact ⟨hd, .inr ⟨by rw [h4], h2, h3, h5, h6⟩⟩
  | none =>
    have hd : V3.dot d d = 1 := by
      by_contra hd
      rw [hs.unit o d hd] at e; cases e
    refine ⟨hd, .inl ?_⟩
    by_cases hc : Passes (faces ps) o d
    · rw [hs.void hk o d hc] at e; cases e
    · unfold Passes at hc
      push Not at hc
      obtain ⟨f, hf, s, hx⟩ := hc
      obtain ⟨h', hh⟩ := firstHit_exists (vertexAt ps sgn junk) hf hx
      have e3 := (h.traced.isect o d h').mpr ⟨hd, hh⟩
      obtain ⟨e4, e5⟩ := indoors_some.mp e3
      rw [e] at e4
      cases e4
      exact ⟨e3, e5, by simp⟩

/-- Primitives that are not the environment are met as if there were none. -/
theorem Surroundings.same (h : Room W (indoors Q) n cam ps sgn junk) (hs : Surroundings Q (faces ps) sky) {o d : V3 ℝ} {hit : SI} (hp : sky ≠ some hit.primitive) : Q.isect o d = some hit ↔ (indoors Q).isect o d = some hit := by
  refine ⟨fun e => ?_, fun e => (indoors_some.mp e).1⟩
  rcases (hs.cases h e).2 with h1 | h1
  · exact h1.1
  · exact absurd h1.1 hp

/-- What is not a triangle and not the environment is not met. -/
theorem Surroundings.never (h : Room W (indoors Q) n cam ps sgn junk) (hs : Surroundings Q (faces ps) sky) {j : Int} (ho : ∀ a ∈ ps, a.prim ≠ j) (hj : sky ≠ some j) (o d : V3 ℝ) (hit : SI) (e : Q.isect o d = some hit) : hit.primitive ≠ j := by
  rintro rfl
  obtain ⟨a, ha, e2⟩ := (h.face ((hs.same h hj).mp e)).1
  exact ho a ha e2.symm

/-- An area light is not the environment; what is at its node, is in its triangles. -/
theorem AnyLight.lightAt {j : Int} {Mj : Aff ℝ} {L : Light} (h : Room W (indoors Q) n cam ps sgn junk) (hs : Surroundings Q (faces ps) sky) (hL : AnyLight ps cam sky j Mj L .extended) {sp : SI} {wi : V3 ℝ} (hv : Vertex W Q n cam sp wi) :
    LightAt Q j Mj sp L := by
  cases hL with
  | area sgn junk Ke ts size nonneg parts other => exact area_lightAt' h hv.finite (fun hp => hs.same h (by rw [hp]; exact other)) size.1 size.2.1 size.2.2 nonneg parts
  | const sgn junk Le c r nonneg top within sign => exact Heaven.lightAt (.const sgn junk Le c r within.1 nonneg) fun j => (hs.under _ top).skyAt h hv j
  | map sgn junk tex ws w h' d2 rot c r m hd top within sign => exact Heaven.lightAt (.map sgn junk tex ws w h' d2 rot c r m hd) fun j => (hs.under _ top).skyAt h hv j

theorem AnyLights.all (h : Room W (indoors Q) n cam ps sgn junk) (hs : Surroundings Q (faces ps) sky) (hl : AnyLights W ps cam sky node M Lt src) (o d : V3 ℝ) (hit : SI) (e : Q.isect o d = some hit) (hL : (W.lightAt hit.primitive).isSome) :
    ∃ l < W.st.lights.length, hit.primitive = node l := by
  rcases (hs.cases h e).2 with ⟨h1, _⟩ | ⟨h1, _⟩
  · obtain ⟨a, ha, e2⟩ := (h.face h1).1
    obtain ⟨L, hL⟩ := Option.isSome_iff_exists.mp hL
    obtain ⟨l, hll, e3⟩ := hl.only a ha L (by rw [← e2]; exact hL)
    exact ⟨l, hll, by rw [e2, e3]⟩
  · exact hl.env _ h1

/-- Light sampling works at the vertices of paths. -/
theorem AnyLights.litBy (h : Room W (indoors Q) n cam ps sgn junk) (hs : Surroundings Q (faces ps) sky) (hl : AnyLights W ps cam sky node M Lt src) (i : Fin 3) {sp : SI} {wi : V3 ℝ} (hv : Vertex W Q n cam sp wi) : LitBy W Q i node M Lt src sp := by
  have hext : ∀ l < W.st.lights.length, src l = .extended → LightAt Q (node l) (M l) sp (Lt l) := fun l hll e => AnyLight.lightAt h hs (by have := hl.each l hll; rwa [e] at this) hv
  have hnever : ∀ l < W.st.lights.length, src l ≠ .extended → ∀ o d hit, Q.isect o d = some hit → hit.primitive ≠ node l := fun l hll hne => by
    have := hl.each l hll
    generalize Lt l = L at this
    generalize src l = s at this hne
    cases this with
    | point I p junk nonneg out other aside away => exact hs.never h out other
    | sun sgn junk E d c r nonneg unit out other aside within => exact hs.never h out other
    | area => exact absurd rfl hne
    | const => exact absurd rfl hne
    | map => exact absurd rfl hne
  refine ⟨fun l hll => ?_, fun d hit e hL => hl.all h hs _ d hit e hL, measurable_lightPdf hl.table sp (fun l hll => ?_) (fun l hll => ?_) fun d hit e hL => hl.all h hs _ d hit e hL⟩
  · have hx := hext l hll
    have hn := hnever l hll
    have := hl.each l hll
    generalize Lt l = L at this hx
    generalize src l = s at this hx hn
    cases this with
    | point I p junk nonneg out other aside away =>
      refine ⟨rfl, nonneg, hv.finite, ?_, hn (by simp)⟩
      rcases hv with ⟨e, _⟩ | ⟨o, d, hd, hi, hf, _⟩
      · rw [e]; exact away
      · obtain ⟨_, ⟨e, _, _⟩ | ⟨_, _, _, hf', _⟩⟩ := hs.cases h hi
        · obtain ⟨_, f, hff, s, hc, rfl, _⟩ := (h.traced.isect o d sp).mp e
          intro e2
          have e3 := plane_const f.2 (o := p) hc.2.2
          have e4 : o + s • d = p := e2
          rw [e4, sub_self] at e3
          exact aside f hff (by rw [← e3]; simp [V3.dot])
        · rw [hf] at hf'; cases hf'
    | sun sgn junk E d c r nonneg unit out other aside within => exact ⟨⟨sgn, c, r, rfl⟩, nonneg, unit⟩
    | area => exact ⟨(hx rfl).ok i, (hx rfl).seenOn i⟩
    | const => exact ⟨(hx rfl).ok i, (hx rfl).seenOn i⟩
    | map => exact ⟨(hx rfl).ok i, (hx rfl).seenOn i⟩
  · by_cases e : src l = .extended
    · exact (hext l hll e).seen
    · have : {d | SeesSky Q (node l) sp.geom.p d} = ∅ := by
        ext d
        simp only [mem_ofPred_eq, mem_empty_iff_false, iff_false]
        rintro ⟨hit, e1, e2⟩
        exact hnever l hll e _ _ _ e1 e2
      rw [this]
      exact MeasurableSet.empty
  · by_cases e : src l = .extended
    · exact (hext l hll e).pdf
    · exact ⟨fun _ => 0, measurable_const, fun d hit _ e1 e2 => absurd e2 (hnever l hll e _ _ _ e1)⟩

/-- What arrives at a point from the environment. -/
noncomputable def skyFrom (Q : Query) (i : Fin 3) (sky : Option Int) (node : ℕ → Int) (Lt : ℕ → Light) (l : ℕ) : Spot → V3 ℝ → ℝ≥0∞ :=
  if sky = some (node l) then heaven (finite Q) fun d => ENNReal.ofReal (chan i ((Lt l).eval (makeInfinite d 0 0) d true)) else 0

theorem AnyLights.bulbs (h : Room W (indoors Q) n cam ps sgn junk) (hs : Surroundings Q (faces ps) sky) (hl : AnyLights W ps cam sky node M Lt src) (i : Fin 3) :
    Bulbs W (finite Q) (faces ps) (vertexAt ps sgn junk) i node M Lt src (skyFrom Q i sky node Lt) where
  table := hl.table
  only j hj L hL := by
    obtain ⟨a, ha, rfl⟩ := prims_faces.mp hj
    exact hl.only a ha L hL
  each l hll := by
    have hv : ∀ j p, (vertexAt ps sgn junk j p).primitive = j ∧ (vertexAt ps sgn junk j p).geom.p = p ∧ (vertexAt ps sgn junk j p).geom.infinite = false ∧ (vertexAt ps sgn junk j p).geom.degenerated = false := fun j p => ⟨rfl, rfl, rfl, rfl⟩
    have hv' : ∀ j p, (vertexAt ps sgn junk j p).primitive = j ∧ (vertexAt ps sgn junk j p).geom.p = p := fun j p => ⟨rfl, rfl⟩
    have ht : Traced (finite Q) (faces ps) (vertexAt ps sgn junk) := h.traced
    have hF : Faceted (finite Q) (faces ps) (vertexAt ps sgn junk) := h.faceted
    have hout : (∀ a ∈ ps, a.prim ≠ node l) → node l ∉ (faces ps).map (·.1) := fun ho hj => by
      obtain ⟨a, ha, e⟩ := prims_faces.mp hj
      exact ho a ha e
    have hE : sky = some (node l) → node l ∉ (faces ps).map (·.1) := fun e hj => by
      obtain ⟨f, hf, e2⟩ := List.mem_map.mp hj
      exact (hs.under _ e).apart f hf e2
    unfold skyFrom
    have := hl.each l hll
    generalize Lt l = L at this
    generalize src l = s at this
    cases this with
    | area sgn' junk' Ke ts size nonneg parts other =>
      rw [if_neg other]
      refine .inl ⟨rfl, rfl, sgn', junk', Ke, ts, rfl, size, nonneg, ?_, fun t ht p hi => ?_⟩
      · unfold faces
        rw [List.filter_map]
        have : ((fun f : Int × Tri => decide (f.1 = node l)) ∘ fun a : Part => (a.prim, triMap a.M a.t)) = fun a => decide (a.prim = node l) := rfl
        rw [this, parts, List.map_map]
        rfl
      · have hm : (⟨node l, M l, t⟩ : Part) ∈ ps := by
          have : (⟨node l, M l, t⟩ : Part) ∈ ps.filter (·.prim = node l) := by rw [parts]; exact List.mem_map.mpr ⟨t, ht, rfl⟩
          exact (List.mem_filter.mp this).1
        exact normalAt_eq h.separate hm hi
    | point I p junk' nonneg out other aside away =>
      rw [if_neg other]
      exact .inr (.inl ⟨rfl, hout out, (ht.pointLamp hv (node l) nonneg aside).thrown hF i (M l)⟩)
    | sun sgn' junk' E d c r nonneg unit out other aside within =>
      rw [if_neg other]
      exact .inr (.inl ⟨rfl, hout out, (ht.beamLamp h.separate hv hs.visible (node l) nonneg unit within.1 within.2 aside).thrown hF i sgn' (M l)⟩)
    | const sgn' junk' Le c r nonneg top within sign =>
      rw [if_pos top]
      have hk : SkyLamp (finite Q) (faces ps) (fun _ => Le) sgn' c r := ht.skyLamp h.separate hv' within.1 within.2 (fun _ _ => nonneg) (fun i => measurable_const) sign
      exact .inr (.inr ⟨rfl, hE top, hk.envconst hF i (M l)⟩)
    | map sgn' junk' tex ws w h' d2 rot c r m hd top within sign =>
      rw [if_pos top]
      have hk : SkyLamp (finite Q) (faces ps) (fun d => envEval tex rot (makeInfinite d junk' junk')) sgn' c r := by
        refine ht.skyLamp h.separate hv' within.1 within.2 (fun _ _ => m.nonneg _ _) (fun i => ?_) sign
        have : (fun d => chan i (envEval tex rot (makeInfinite d junk' junk'))) = fun d => chan i (tex (envCoords rot (-d)).1 (envCoords rot (-d)).2) := funext fun d => by simp [envEval, makeInfinite]
        rw [this]
        exact (measurable_chan i).comp (m.texture.comp ((measurable_envCoords rot).comp measurable_neg3))
      exact .inr (.inr ⟨rfl, hE top, hk.env hF i (M l)⟩)

/-- What arrives from infinity. -/
theorem AnyLights.fromSky (h : Room W (indoors Q) n cam ps sgn junk) (hs : Surroundings Q (faces ps) sky) (hl : AnyLights W ps cam sky node M Lt src) (i : Fin 3) (x : Spot) (d : V3 ℝ) (hd : V3.dot d d = 1) :
    Transport.fromSky W Q i x.2 d = skies W (skyFrom Q i sky node Lt) x d := by
  have hinj : ∀ j k, j < W.st.lights.length → k < W.st.lights.length → node j = node k → j = k := fun j k hj hk e => by
    have h1 := hl.table.index j hj
    have h2 := hl.table.index k hk
    rw [e, h2] at h1
    simpa using h1.symm
  have ht : Traced (finite Q) (faces ps) (vertexAt ps sgn junk) := h.traced
  unfold skies
  cases hk : sky with
  | none =>
    have e0 : Transport.fromSky W Q i x.2 d = 0 := by
      unfold Transport.fromSky
      cases e : Q.isect x.2 d with
      | none => rfl
      | some hit =>
        rcases (hs.cases h e).2 with ⟨_, h1, _⟩ | ⟨h1, _⟩
        · simp [h1]
        · rw [hk] at h1; cases h1
    rw [e0, Finset.sum_eq_zero]
    intro l _
    unfold skyFrom
    rw [if_neg (by simp)]
    rfl
  | some s =>
    obtain ⟨l, hll, rfl⟩ := hl.env s hk
    rw [Finset.sum_eq_single l]
    · unfold skyFrom
      rw [if_pos rfl]
      unfold Transport.fromSky heaven
      by_cases hp : Passes (faces ps) x.2 d
      · rw [if_pos ((ht.none_iff hd).mpr hp)]
        obtain ⟨g, e, h1, h2⟩ := (hs.under _ hk).isect x.2 d hd hp
        rw [e]
        dsimp only
        rw [if_pos h1]
        unfold emitted
        dsimp only
        rw [hl.table.light l hll]
        dsimp only
        have := hl.each l hll
        generalize Lt l = L at this
        generalize src l = s at this
        cases this with
        | area sgn' junk' Ke ts size nonneg parts other => exact absurd hk other
        | point I p junk' nonneg out other aside away => exact absurd hk other
        | sun sgn' junk' E d c r nonneg unit out other aside within => exact absurd hk other
        | const => rfl
        | map => simp [Light.env, envEval, makeInfinite, h2]
      · rw [if_neg (fun e => hp ((ht.none_iff hd).mp e))]
        cases e : Q.isect x.2 d with
        | none => rfl
        | some hit =>
          rcases (hs.cases h e).2 with ⟨_, h1, _⟩ | ⟨_, h1, _⟩
          · simp [h1]
          · exact absurd h1 hp
    · intro k hkl hne
      unfold skyFrom
      rw [if_neg (fun e => hne (hinj k l (Finset.mem_range.mp hkl) hll (Option.some.inj e).symm))]
      rfl
    · intro hn; exact absurd (Finset.mem_range.mpr hll) hn

theorem AnyLights.infinite (h : Room W (indoors Q) n cam ps sgn junk) (hs : Surroundings Q (faces ps) sky) (hl : AnyLights W ps cam sky node M Lt src) (o d : V3 ℝ) (s : SI) (_ : V3.dot d d = 1) (e : Q.isect o d = some s) (hi : s.geom.infinite = true) :
    s.kind = .light ∧ (W.prim s.primitive).isSome := by
  rcases (hs.cases h e).2 with ⟨_, h1, _⟩ | ⟨h1, _, h2, _⟩
  · rw [hi] at h1; cases h1
  · refine ⟨h2, ?_⟩
    obtain ⟨l, hll, e2⟩ := hl.env _ h1
    have := hl.table.light l hll
    rw [← e2] at this
    unfold World.lightAt at this
    cases e3 : W.prim s.primitive with
    | none => rw [e3] at this; cases this
    | some _ => rfl

/-! ### The theorems -/

/-- C86. Light tracing and path tracing with light sampling compute the same image, up to the lights that the camera sees, in every scene of separate triangles with diffuse and glossy materials, mixtures of them and materials of OBJ models, and any
    number of area lights, point lights and directional lights, with or without an environment light, constant or given by a map: for every maximal length N, the image of the light tracer and the image of the path tracer with maximal length 2 (the
    lights that the camera sees) add up to the image of the path tracer with maximal length N, when primary rays are sampled in a pixel.
    Missing: specular materials; the point lights are in the planes of no triangles, and the directional lights are parallel to none. -/
theorem C86_outdoors_partial (h : Room W (indoors Q) n cam ps sgn junk) (hs : Surroundings Q (faces ps) sky) {fin : Int → Finish} (hp : Paint W ps sgn junk fin) (hl : AnyLights W ps cam sky node M Lt src) (i : Fin 3)
    (H : ℝ × ℝ → ℝ≥0∞) (hH : Measurable H) (N : ℕ) (hN : 2 ≤ N) (mode : Mode) (hmode : mode ≠ .naive) (u : RaySampleU) (uc : ℝ) (rs : ℕ → Rnd) :
    averageLight (fun u => ∫⁻ uc, average (N - 2) 2 rs (fun rs' => measured i H (ltSample W Q N u uc rs')) ∂uniform1) + average 1 1 rs (fun rs' => measured i H (ptSample W Q ⟨mode, true, 2⟩ u uc rs')) =
      average (N - 1) 1 rs (fun rs' => measured i H (ptSample W Q ⟨mode, true, N⟩ u uc rs')) :=
  C86_lamps_same_image_partial (Q := Q) (h.matte hp) (hl.bulbs h hs i) (hl.fromSky h hs i) (hl.infinite h hs) (compsAt fin) (fun _ _ _ _ => rfl) rfl hs.unit (fun _ _ hv => hl.litBy h hs i hv) H hH N hN mode hmode u uc rs

/-- C100. The path tracer with light sampling in these scenes: the integral over the film of the radiance arriving along the primary rays, from all lights, when primary rays are sampled in a pixel.
    Missing: as for `C100_scene_partial`; specular materials; the point lights are in the planes of no triangles, and the directional lights are parallel to none. -/
theorem C100_outdoors_partial (h : Room W (indoors Q) n cam ps sgn junk) (hs : Surroundings Q (faces ps) sky) {fin : Int → Finish} (hp : Paint W ps sgn junk fin) (hl : AnyLights W ps cam sky node M Lt src) (i : Fin 3)
    (mode : Mode) (hmode : mode ≠ .naive) (N : ℕ) (dir : ℝ × ℝ → V3 ℝ) (hdir : ∀ q, primaryRay cam q.1 q.2 = some (dir q)) (H : ℝ × ℝ → ℝ≥0∞) (hH : Measurable H) (u : RaySampleU) (uc : ℝ) (rs : ℕ → Rnd) :
    average (N - 1) 1 rs (fun rs' => measured i H (ptSample W Q ⟨mode, true, N⟩ u uc rs')) = ∫⁻ q, H q * radianceLit W Q i (compsAt fin) node src (N - 1) (camVertex W n cam) (dir q) ∂uniform2 := by
  have hm := h.matte hp
  have hRf := hm.regular (comps := compsAt fin) (fun _ _ _ _ => rfl) rfl
  have hR : Regular W Q n cam (compsAt fin) := ⟨hRf.camera, hRf.proper, hRf.single, fun o d s hd e hf => hRf.surface o d s hd (by show (finite Q).isect o d = _; rw [finite_some e, hf]; rfl) hf, hl.infinite h hs⟩
  have hmr := (hl.bulbs h hs i).measurable_radiance (Q := Q) hm (hl.fromSky h hs i) (comps := compsAt fin) (fun _ _ _ _ => rfl) hs.unit
  rw [C100_scene_partial hR hm.camera hl.table src i (fun _ _ hv => hl.litBy h hs i hv) (fun k sp _ _ => (hmr k sp).2) (fun k sp _ _ => (hmr k sp).1) ⟨mode, true, N⟩ hmode dir hdir H hH u uc rs, if_pos (.inr rfl), add_zero]

/-! ### Such queries exist -/

theorem skyQ_surroundings {Fs : List (Int × Tri)} {vertex : Int → V3 ℝ → SI} (hs : Separate Fs) {sky : Int} (ha : ∀ f ∈ Fs, f.1 ≠ sky) : Surroundings (skyQ Fs vertex sky) Fs (some sky) where
  under s e := by cases e; exact skyQ_open hs ha
  void e := by cases e
  unit o d hd := if_neg hd
  visible s1 s2 _ hi _ := by
    show (if s2.geom.infinite then _ else _) = true ↔ _
    rw [hi]
    simp

open Classical in
/-- Queries without an environment light. -/
noncomputable def voidQ (Fs : List (Int × Tri)) (vertex : Int → V3 ℝ → SI) : Query := ⟨(traceQ Fs vertex).isect, (skyQ Fs vertex 0).visible⟩

theorem voidQ_surroundings {Fs : List (Int × Tri)} {vertex : Int → V3 ℝ → SI} (hs : Separate Fs) : Surroundings (voidQ Fs vertex) Fs none where
  under s e := by cases e
  void _ o d hc := by
    cases e : (voidQ Fs vertex).isect o d with
    | none => rfl
    | some h' =>
      obtain ⟨_, f, hf, s, hx, _⟩ := ((traceQ_traced vertex hs).isect o d h').mp e
      exact absurd hx (hc f hf s)
  unit o d hd := by
    cases e : (voidQ Fs vertex).isect o d with
    | none => rfl
    | some h' => exact absurd ((traceQ_traced vertex hs).isect o d h' |>.mp e).1 hd
  visible s1 s2 _ hi _ := by
    show (if s2.geom.infinite then _ else _) = true ↔ _
    rw [hi]
    simp

theorem voidQ_indoors {Fs : List (Int × Tri)} {vertex : Int → V3 ℝ → SI} (hs : Separate Fs) (hf : ∀ j p, (vertex j p).geom.infinite = false) : Traced (indoors (voidQ Fs vertex)) Fs vertex where
  isect o d hit := by
    rw [indoors_some]
    constructor
    · rintro ⟨e, _⟩
      exact ((traceQ_traced vertex hs).isect o d hit).mp e
    · intro e
      refine ⟨((traceQ_traced vertex hs).isect o d hit).mpr e, ?_⟩
      obtain ⟨f, _, _, _, rfl, _⟩ := e.2
      exact hf _ _
  visible s1 s2 _ h2 := by
    show (if s2.geom.infinite then _ else _) = true ↔ _
    rw [h2]
    simp

/-! ### Concrete scene: that of C82_Scenes under a grey sky, with a bulb and the sun -/

noncomputable def exAllOps : List (Scene.Op (Aff ℝ)) := exDayOps ++ [.createPrimitive ⟨none, none, some 2, none, none⟩, .createPrimitive ⟨none, none, some 3, none, none⟩, .addChild 0 5, .addChild 0 6]

noncomputable def exAllLight : ℕ → Light
  | 0 => area (fun _ => false) 0 (V3.all 1) [glowTri]
  | 1 => envconst (fun _ => false) 0 (V3.all (1 / 2)) 0 2
  | 2 => Light.point (V3.all 1) ⟨0, 0, 1 / 2⟩ 0
  | _ => slantSun

def exAllNode : ℕ → Int
  | 0 => 1
  | 1 => 4
  | 2 => 5
  | _ => 6

noncomputable def exAllSrc : ℕ → Source
  | 0 => .extended
  | 1 => .extended
  | 2 => .point (V3.all 1) ⟨0, 0, 1 / 2⟩ 0
  | _ => .beam (V3.all 1) sunDir 0

noncomputable def exAll : World := { exShiny with
  st := Scene.buildLights (Scene.run (fun l => l == 1) Scene.reset exAllOps) [(0, 1), (1, 1), (2, 1), (3, 1), (4, 1), (5, 1), (6, 1)]
  light := exAllLight }

theorem exAllRoom : Room exAll (indoors exDayQ) 3 exCam exParts (fun _ => false) 0 :=
  { exRoom with camera := rfl, cameraAt := rfl, traced := skyQ_indoors exParts_separate (fun _ _ => rfl) 4 }

theorem exAllPaint : Paint exAll exParts (fun _ => false) 0 exFin where
  material a ha := by
    rcases (by simpa [exParts] using ha : a = ⟨1, 1, glowTri⟩ ∨ a = ⟨2, 1, lampTri⟩ ∨ a = ⟨2, 1, shadeTri⟩) with rfl | rfl | rfl <;> rfl
  sound := exPaint.sound

theorem exAllSky : Surroundings exDayQ (faces exParts) (some 4) := skyQ_surroundings exParts_separate fun f hf => by
  rw [exParts_faces] at hf
  rcases (by simpa using hf : f = (1, glowTri) ∨ f = (2, lampTri) ∨ f = (2, shadeTri)) with rfl | rfl | rfl <;> simp

theorem exWithin : Within exParts 0 2 := by
  refine ⟨two_pos, fun f hf p hi => ?_⟩
  rw [exParts_faces] at hf
  obtain ⟨q, ⟨h1, h2, h3⟩, rfl⟩ := hi
  rcases (by simpa using hf : f = (1, glowTri) ∨ f = (2, lampTri) ∨ f = (2, shadeTri)) with rfl | rfl | rfl
  · simp [V3.dot, triAt, glowTri]; nlinarith
  · simp [V3.dot, triAt, lampTri]; nlinarith
  · simp [V3.dot, triAt, shadeTri]; nlinarith

theorem exParts_cross {f : Int × Tri} (hf : f ∈ faces exParts) : ∃ k : ℝ, k ≠ 0 ∧ triCross f.2 = ⟨0, 0, k⟩ ∧ (f.2.a.z = -1 ∨ f.2.a.z = 1 ∨ f.2.a.z = -1 / 2) := by
  rw [exParts_faces] at hf
  rcases (by simpa using hf : f = (1, glowTri) ∨ f = (2, lampTri) ∨ f = (2, shadeTri)) with rfl | rfl | rfl
  · exact ⟨1, by norm_num, by ext <;> simp [triCross, glowTri, V3.cross], .inl rfl⟩
  · exact ⟨-1, by norm_num, by ext <;> simp [triCross, lampTri, V3.cross], .inr (.inl rfl)⟩
  · exact ⟨-1 / 16, by norm_num, by ext <;> simp [triCross, shadeTri, V3.cross]; norm_num, .inr (.inr rfl)⟩

theorem exAllLights : AnyLights exAll exParts exCam (some 4) exAllNode (fun _ => 1) exAllLight exAllSrc := by
  have hlen : exAll.st.lights.length = 4 := rfl
  have hcase : ∀ l < exAll.st.lights.length, l = 0 ∨ l = 1 ∨ l = 2 ∨ l = 3 := fun l hl => by rw [hlen] at hl; omega
  have hout : ∀ j : Int, j ≠ 1 → j ≠ 2 → ∀ a ∈ exParts, a.prim ≠ j := fun j h1 h2 a ha => by
    rcases (by simpa [exParts] using ha : a = ⟨1, 1, glowTri⟩ ∨ a = ⟨2, 1, lampTri⟩ ∨ a = ⟨2, 1, shadeTri⟩) with rfl | rfl | rfl
    · exact h1.symm
    · exact h2.symm
    · exact h2.symm
  have hone : NonNeg (V3.all 1) := exGlow_lamps.nonneg 0 one_pos
  refine ⟨⟨by rw [hlen]; exact four_pos, fun l hl => ?_, fun l hl => ?_, fun l hl => ?_⟩, fun l hl => ?_, fun a ha L hL => ?_, fun s e => ?_⟩
  · rcases hcase l hl with rfl | rfl | rfl | rfl <;> rfl
  · rcases hcase l hl with rfl | rfl | rfl | rfl <;> rfl
  · rcases hcase l hl with rfl | rfl | rfl | rfl <;> rfl
  · rcases hcase l hl with rfl | rfl | rfl | rfl
    · exact .area _ _ _ _ (exGlow_lamps.size 0 one_pos) hone (by simp [exParts, exAllNode]) (by simp [exAllNode])
    · exact .const _ _ _ _ _ half_nonneg rfl exWithin (by simp)
    · refine .point _ _ _ hone (hout 5 (by decide) (by decide)) (by simp [exAllNode]) (fun f hf => ?_) ?_
      · obtain ⟨k, hk, e, hz⟩ := exParts_cross hf
        rw [e]
        rcases hz with hz | hz | hz <;> simp [V3.dot, hz, hk] <;> norm_num
      · intro e
        have := congrArg V3.z e
        simp [exCam] at this
    · refine .sun _ _ _ _ _ _ hone sunDir_unit (hout 6 (by decide) (by decide)) (by simp [exAllNode]) (fun f hf => ?_) exWithin
      obtain ⟨k, hk, e, _⟩ := exParts_cross hf
      rw [e]
      simp [V3.dot, sunDir_z, hk]
  · rcases (by simpa [exParts] using ha : a = ⟨1, 1, glowTri⟩ ∨ a = ⟨2, 1, lampTri⟩ ∨ a = ⟨2, 1, shadeTri⟩) with rfl | rfl | rfl
    · exact ⟨0, by rw [hlen]; exact four_pos, rfl⟩
    · have : exAll.lightAt 2 = none := rfl
      rw [this] at hL; cases hL
    · have : exAll.lightAt 2 = none := rfl
      rw [this] at hL; cases hL
  · cases e
    exact ⟨1, by rw [hlen]; norm_num, rfl⟩

example (H : ℝ × ℝ → ℝ≥0∞) (hH : Measurable H) (i : Fin 3) (mode : Mode) (hmode : mode ≠ .naive) (N : ℕ) (hN : 2 ≤ N) (u : RaySampleU) (uc : ℝ) (rs : ℕ → Rnd) :
    averageLight (fun u => ∫⁻ uc, average (N - 2) 2 rs (fun rs' => measured i H (ltSample exAll exDayQ N u uc rs')) ∂uniform1) + average 1 1 rs (fun rs' => measured i H (ptSample exAll exDayQ ⟨mode, true, 2⟩ u uc rs')) =
      average (N - 1) 1 rs (fun rs' => measured i H (ptSample exAll exDayQ ⟨mode, true, N⟩ u uc rs')) :=
  C86_outdoors_partial exAllRoom exAllSky exAllPaint exAllLights i H hH N hN mode hmode u uc rs

example (i : Fin 3) (mode : Mode) (hmode : mode ≠ .naive) (N : ℕ) (dir : ℝ × ℝ → V3 ℝ) (hdir : ∀ q, primaryRay exCam q.1 q.2 = some (dir q)) (H : ℝ × ℝ → ℝ≥0∞) (hH : Measurable H) (u : RaySampleU) (uc : ℝ) (rs : ℕ → Rnd) :
    average (N - 1) 1 rs (fun rs' => measured i H (ptSample exAll exDayQ ⟨mode, true, N⟩ u uc rs')) = ∫⁻ q, H q * radianceLit exAll exDayQ i (compsAt exFin) exAllNode exAllSrc (N - 1) (camVertex exAll 3 exCam) (dir q) ∂uniform2 :=
  C100_outdoors_partial exAllRoom exAllSky exAllPaint exAllLights i mode hmode N dir hdir H hH u uc rs

end LM.Transport
