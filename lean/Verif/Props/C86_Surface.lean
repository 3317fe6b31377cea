import Verif.Props.C86_Area
import Verif.Props.C86_Adjoint
/-
  C86: scenes of triangles. Light between two points of the surfaces goes both ways.
-/
namespace LM.Transport
open MeasureTheory LM LM.Surface LM.Material LM.Light LM.MathF LM.Path LM.Render LM.Solid Set
open scoped ENNReal

/-- A point of a primitive. -/
abbrev Spot := Int × V3 ℝ

/-- What a ray meets: the primitive and the point. -/
def hitOf (Q : Query) (o d : V3 ℝ) : Option Spot := (Q.isect o d).map fun h => (h.primitive, h.geom.p)

/-- What is required of intersection, in a scene whose surfaces are the triangles `Fs`, each with its primitive. `vertex j p` is the interaction at the point p of the primitive j. -/
structure Faceted (Q : Query) (Fs : List (Int × Tri)) (vertex : Int → V3 ℝ → SI) : Prop where
  area : ∀ f ∈ Fs, 0 < twiceArea f.2
  at_point : ∀ j p, (vertex j p).primitive = j ∧ (vertex j p).geom.p = p ∧ (vertex j p).geom.infinite = false ∧ (vertex j p).geom.degenerated = false
  /-- the geometric normal is that of the triangle, to one side or the other -/
  normal : ∀ f ∈ Fs, ∀ p, Inside f.2 p → (vertex f.1 p).geom.gn = dirOf (triCross f.2) ∨ (vertex f.1 p).geom.gn = -dirOf (triCross f.2)
  /-- what a ray meets depends only on the primitive and the point -/
  same : ∀ o d h, V3.dot d d = 1 → Q.isect o d = some h → h = vertex h.primitive h.geom.p
  /-- it is on the ray -/
  ahead : ∀ o d h, V3.dot d d = 1 → Q.isect o d = some h → ∃ s : ℝ, 0 < s ∧ h.geom.p = o + s • d
  /-- and except for directions of measure zero (the edges), in one triangle -/
  once : ∀ o, ∀ᵐ d ∂solidAngle, ∀ h, Q.isect o d = some h → ∃ (k : ℕ) (t : Tri), Fs[k]? = some (h.primitive, t) ∧ Inside t h.geom.p ∧ ∀ (k' : ℕ) (t' : Tri), Fs[k']? = some (h.primitive, t') → Inside t' h.geom.p → k' = k
  /-- two points see each other, or neither sees the other -/
  both : ∀ s ∈ Fs, ∀ t ∈ Fs, ∀ p q, Inside s.2 p → Inside t.2 q → V3.dot (triCross s.2) (q - p) ≠ 0 → V3.dot (triCross t.2) (q - p) ≠ 0 →
    (hitOf Q p (dirOf (q - p)) = some (t.1, q) ↔ hitOf Q q (dirOf (p - q)) = some (s.1, p))
  /-- measurability -/
  meets : ∀ j, MeasurableSet {q : V3 ℝ × V3 ℝ | ∃ p, hitOf Q q.1 q.2 = some (j, p)}
  point : ∀ j, ∃ P : V3 ℝ × V3 ℝ → V3 ℝ, Measurable P ∧ ∀ q p, hitOf Q q.1 q.2 = some (j, p) → p = P q
  gn : ∀ j, Measurable fun p => (vertex j p).geom.gn

variable {Q : Query} {Fs : List (Int × Tri)} {vertex : Int → V3 ℝ → SI}

theorem Faceted.hit (h : Faceted Q Fs vertex) {o d : V3 ℝ} (hd : V3.dot d d = 1) : Q.isect o d = (hitOf Q o d).map fun x => vertex x.1 x.2 := by
  unfold hitOf
  cases e : Q.isect o d with
  | none => rfl
  | some hit => rw [Option.map_some, Option.map_some, ← h.same o d hit hd e]

/-- Functions of what a ray meets are measurable. -/
theorem Faceted.measurable_hit (h : Faceted Q Fs vertex) {α : Type} [MeasurableSpace α] {o d : α → V3 ℝ} (ho : Measurable o) (hd : Measurable d) {F : α → Spot → ℝ≥0∞} (hF : Measurable fun q : α × Spot => F q.1 q.2) :
    Measurable fun a => match hitOf Q (o a) (d a) with | none => 0 | some x => F a x := by
  classical
  choose P hP hP' using h.point
  have hod : Measurable fun a => (o a, d a) := ho.prodMk hd
  have e : (fun a => match hitOf Q (o a) (d a) with | none => 0 | some x => F a x) = fun a => ∑' j : Int, ({a | ∃ p, hitOf Q (o a) (d a) = some (j, p)}.indicator (fun a => F a (j, P j (o a, d a)))) a := by
    funext a
    cases hi : hitOf Q (o a) (d a) with
    | none =>
      symm
      refine ENNReal.tsum_eq_zero.mpr fun j => indicator_of_notMem ?_ _
      simp [hi]
    | some x =>
      obtain ⟨j, p⟩ := x
      dsimp only
      rw [tsum_eq_single j]
      · rw [indicator_of_mem (show a ∈ {a | ∃ p, hitOf Q (o a) (d a) = some (j, p)} from ⟨p, hi⟩), ← hP' j (o a, d a) p hi]
      · intro j' hj'
        refine indicator_of_notMem ?_ _
        rintro ⟨p', e⟩
        rw [hi] at e
        injection e with e
        injection e with e _
        exact hj' e.symm
  rw [e]
  refine Measurable.ennreal_tsum fun j => Measurable.indicator ?_ (hod (h.meets j))
  exact hF.comp (measurable_id.prodMk (measurable_const.prodMk ((hP j).comp hod)))

/-- The point p of the primitive j is seen from o. -/
def Sees (Q : Query) (o : V3 ℝ) (j : Int) (p : V3 ℝ) : Prop := hitOf Q o (dirOf (p - o)) = some (j, p)

theorem Faceted.measurable_met (h : Faceted Q Fs vertex) (j : Int) {α : Type} [MeasurableSpace α] {o d p : α → V3 ℝ} (ho : Measurable o) (hd : Measurable d) (hp : Measurable p) :
    MeasurableSet {a | hitOf Q (o a) (d a) = some (j, p a)} := by
  obtain ⟨P, hP, hP'⟩ := h.point j
  have hod : Measurable fun a => (o a, d a) := ho.prodMk hd
  have e : {a | hitOf Q (o a) (d a) = some (j, p a)} = {a | ∃ p, hitOf Q (o a) (d a) = some (j, p)} ∩ {a | p a - P (o a, d a) = 0} := by
    ext a
    simp only [mem_ofPred_eq, mem_inter_iff]
    constructor
    · intro e
      exact ⟨⟨_, e⟩, sub_eq_zero.mpr (hP' (o a, d a) _ e)⟩
    · rintro ⟨⟨p', e⟩, e2⟩
      rw [sub_eq_zero.mp e2, ← hP' (o a, d a) p' e, e]
  rw [e]
  exact (hod (h.meets j)).inter ((measurable_sub3' hp (hP.comp hod)) (measurable_point 0))

theorem Faceted.measurable_sees (h : Faceted Q Fs vertex) (j : Int) : MeasurableSet {q : V3 ℝ × V3 ℝ | Sees Q q.1 j q.2} :=
  h.measurable_met j measurable_fst (measurable_dirOf.comp (measurable_sub3' measurable_snd measurable_fst)) measurable_snd

theorem dirOf_neg (v : V3 ℝ) : dirOf (-v) = -dirOf v := by
  unfold dirOf
  have : V3.dot (-v) (-v) = V3.dot v v := by simp [V3.dot]
  rw [this, smul_neg]

theorem dirOf_swap (p q : V3 ℝ) : dirOf (p - q) = -dirOf (q - p) := by rw [← dirOf_neg, neg_sub]

theorem dot_dirOf_ne {n v : V3 ℝ} (h : V3.dot n v ≠ 0) : V3.dot n (dirOf v) ≠ 0 := by
  unfold dirOf
  rw [V3.dot_smul_right]
  have hv := dot_pos_of_ne h
  exact mul_ne_zero (one_div_ne_zero (Real.sqrt_pos.mpr hv).ne') h

theorem triCross_ne {t : Tri} (h : 0 < twiceArea t) : triCross t ≠ 0 := by
  intro e
  unfold twiceArea at h
  rw [e] at h
  simp [V3.dot] at h

theorem inside_dir {t : Tri} {o p : V3 ℝ} (hi : Inside t p) (hd : V3.dot (triCross t) (p - o) ≠ 0) : dirOf (p - o) ∈ seen t o ∧ hitPoint t o (dirOf (p - o)) = p := by
  have hv := dot_pos_of_ne hd
  obtain ⟨_, e⟩ := dirOf_spec hv
  exact inside_hit (Real.sqrt_pos.mpr hv) (by rw [← e]; abel) hi (dot_dirOf_ne hd)

open Classical in
/-- Integrals over directions, of functions of what is seen, are sums over the triangles of integrals over their points. -/
theorem Faceted.over (h : Faceted Q Fs vertex) (o : V3 ℝ) {F : Spot → V3 ℝ → ℝ≥0∞} (hF : ∀ j, Measurable fun q : V3 ℝ × V3 ℝ => F (j, q.1) q.2) :
    ∫⁻ d, (match hitOf Q o d with | none => 0 | some x => F x d) ∂solidAngle =
      (Fs.map fun f => ∫⁻ p, geo f.2 o p * (if Sees Q o f.1 p then F (f.1, p) (dirOf (p - o)) else 0) ∂triMeasure f.2).sum := by
  have hm : ∀ f : Int × Tri, Measurable fun d => if hitOf Q o d = some (f.1, hitPoint f.2 o d) then F (f.1, hitPoint f.2 o d) d else 0 := fun f =>
    Measurable.ite (h.measurable_met f.1 measurable_const measurable_id (measurable_hitPoint f.2 o)) ((hF f.1).comp ((measurable_hitPoint f.2 o).prodMk measurable_id)) measurable_const
  have e1 : ∀ f ∈ Fs, ∫⁻ p, geo f.2 o p * (if Sees Q o f.1 p then F (f.1, p) (dirOf (p - o)) else 0) ∂triMeasure f.2 =
      ∫⁻ d, (seen f.2 o).indicator (fun d => if hitOf Q o d = some (f.1, hitPoint f.2 o d) then F (f.1, hitPoint f.2 o d) d else 0) d ∂solidAngle := by
    intro f _
    rw [lintegral_indicator (measurable_seen f.2 o), tri_solid f.2 o (hm f)]
    refine lintegral_congr_ae ((inside_ae f.2).mono fun p hp => ?_)
    beta_reduce
    by_cases h0 : V3.dot (triCross f.2) (p - o) = 0
    · rw [geo_zero h0, zero_mul, zero_mul]
    · rw [(inside_dir hp h0).2]
      congr 1
      unfold Sees
      split <;> simp_all
  rw [List.map_congr_left e1, ← lintegral_list_sum solidAngle _ Fs fun f _ => (hm f).indicator (measurable_seen f.2 o)]
  have hg : ∀ᵐ d ∂solidAngle, ∀ f ∈ Fs, V3.dot (triCross f.2) d ≠ 0 := by
    have hgz : ∀ l : List (Int × Tri), (∀ f ∈ l, 0 < twiceArea f.2) → ∀ᵐ d ∂solidAngle, ∀ f ∈ l, V3.dot (triCross f.2) d ≠ 0 := by
      intro l
      induction l with
      | nil => exact fun _ => Filter.Eventually.of_forall fun d f hf => absurd hf List.not_mem_nil
      | cons a l ih =>
        intro hl
        filter_upwards [grazing_null (triCross_ne (hl a (by simp))), ih fun f hf => hl f (by simp [hf])] with d h1 h2 f hf
        rcases List.mem_cons.mp hf with rfl | hf
        · rw [V3.dot_comm]; exact h1
        · exact h2 f hf
    exact hgz Fs h.area
  refine lintegral_congr_ae ?_
  filter_upwards [solidAngle_unit, h.once o, hg] with d hd ho hg
  have hzero : ∀ f : Int × Tri, ¬ (d ∈ seen f.2 o ∧ hitOf Q o d = some (f.1, hitPoint f.2 o d)) →
      (seen f.2 o).indicator (fun d => if hitOf Q o d = some (f.1, hitPoint f.2 o d) then F (f.1, hitPoint f.2 o d) d else 0) d = 0 := fun f hn => by
    by_cases hs : d ∈ seen f.2 o
    · rw [indicator_of_mem hs, if_neg fun hc => hn ⟨hs, hc⟩]
    · rw [indicator_of_notMem hs]
  cases hi : Q.isect o d with
  | none =>
    have hn : hitOf Q o d = none := by unfold hitOf; rw [hi]; rfl
    rw [hn]
    symm
    refine List.sum_eq_zero fun x hx => ?_
    obtain ⟨f, _, rfl⟩ := List.mem_map.mp hx
    exact hzero f fun hc => by rw [hn] at hc; cases hc.2
  | some hit =>
    have hn : hitOf Q o d = some (hit.primitive, hit.geom.p) := by unfold hitOf; rw [hi]; rfl
    rw [hn]
    dsimp only
    obtain ⟨k, t, hk, hin, hu⟩ := ho hit hi
    obtain ⟨s, hs, es⟩ := h.ahead o d hit hd hi
    rw [sum_single _ Fs k (hit.primitive, t) hk fun k' t' e hne => hzero t' fun hc => ?_]
    · obtain ⟨hseen, hpt⟩ := inside_hit hs es hin (hg (hit.primitive, t) (List.mem_of_getElem? hk))
      dsimp only
      rw [indicator_of_mem hseen, hpt, if_pos hn]
    · rw [hn] at hc
      obtain ⟨hs', e'⟩ := hc
      injection e' with e'
      injection e' with e1 e2
      refine hne (hu k' t'.2 (by rw [e, e1]) ?_)
      rw [e2]
      exact (seen_dir hd hs').2

/-! ### The area of the surfaces -/

/-- Surface area. -/
noncomputable def surf (Fs : List (Int × Tri)) : Measure Spot := (Fs.map fun f => (triMeasure f.2).map (Prod.mk f.1)).sum

theorem lintegral_surf {f : Spot → ℝ≥0∞} (hf : Measurable f) : ∫⁻ x, f x ∂surf Fs = (Fs.map fun g => ∫⁻ p, f (g.1, p) ∂triMeasure g.2).sum := by
  unfold surf
  rw [lintegral_map_sum]
  refine congrArg List.sum (List.map_congr_left fun g _ => ?_)
  rw [lintegral_map hf measurable_prodMk_left]

theorem sum_sum_comm {α β : Type} (l : List α) (l' : List β) (f : α → β → ℝ≥0∞) : (l.map fun a => (l'.map fun b => f a b).sum).sum = (l'.map fun b => (l.map fun a => f a b).sum).sum := by
  induction l with
  | nil => simp
  | cons a l ih => simp only [List.map_cons, List.sum_cons, List.sum_map_add, ih]

/-- The cosine of the geometric normal. -/
noncomputable def slant (vertex : Int → V3 ℝ → SI) (x : Spot) (d : V3 ℝ) : ℝ≥0∞ := ENNReal.ofReal |V3.dot (vertex x.1 x.2).geom.gn d|

theorem Faceted.slant_eq (h : Faceted Q Fs vertex) {f : Int × Tri} (hf : f ∈ Fs) {p : V3 ℝ} (hp : Inside f.2 p) (d : V3 ℝ) : slant vertex (f.1, p) d = ENNReal.ofReal |V3.dot (dirOf (triCross f.2)) d| := by
  unfold Transport.slant
  rcases h.normal f hf p hp with e | e
  · rw [e]
  · dsimp only
    rw [e, V3.dot_comm, V3.dot_neg_right, abs_neg, V3.dot_comm]

theorem measurable_spot {α : Type} [MeasurableSpace α] {F : Spot → α → ℝ≥0∞} (h : ∀ j, Measurable fun q : V3 ℝ × α => F (j, q.1) q.2) : Measurable fun q : Spot × α => F q.1 q.2 := by
  have h1 : Measurable fun q : Int × V3 ℝ × α => F (q.1, q.2.1) q.2.2 := measurable_from_prod_countable_right h
  exact h1.comp ((measurable_fst.comp measurable_fst).prodMk ((measurable_snd.comp measurable_fst).prodMk measurable_snd))

theorem Faceted.measurable_slant (h : Faceted Q Fs vertex) : Adjoint.Meas (Transport.slant vertex) :=
  measurable_spot (F := Transport.slant vertex) fun j => (continuous_abs.measurable.comp (measurable_dot3 ((h.gn j).comp measurable_fst) measurable_snd)).ennreal_ofReal

theorem Faceted.measurable_back (h : Faceted Q Fs vertex) {F : Spot → V3 ℝ → ℝ≥0∞} (hF : Adjoint.Meas F) : Adjoint.Meas (Adjoint.back (fun x d => hitOf Q x.2 d) F) := by
  have := h.measurable_hit (α := Spot × V3 ℝ) (o := fun q => q.1.2) (d := fun q => q.2) (F := fun q y => F y (-q.2)) (measurable_snd.comp measurable_fst) measurable_snd
    (hF.comp (measurable_snd.prodMk (measurable_neg3.comp (measurable_snd.comp measurable_fst))))
  refine (congrArg Measurable (funext fun q => ?_)).mp this
  unfold Adjoint.back
  dsimp only
  cases hitOf Q q.1.2 q.2 <;> rfl

theorem geo_slant (h : Faceted Q Fs vertex) {s t : Int × Tri} (hs : s ∈ Fs) (ht : t ∈ Fs) {p q : V3 ℝ} (hp : Inside s.2 p) (hq : Inside t.2 q) :
    geo t.2 p q * slant vertex (s.1, p) (dirOf (q - p)) = geo s.2 q p * slant vertex (t.1, q) (dirOf (p - q)) := by
  rw [h.slant_eq hs hp, h.slant_eq ht hq]
  unfold geo
  rw [dirOf_swap p q, V3.dot_neg_right, V3.dot_neg_right, abs_neg, abs_neg]
  have e : V3.dot (p - q) (p - q) = V3.dot (q - p) (q - p) := by simp [V3.dot]; ring
  rw [e, ← ENNReal.ofReal_mul (div_nonneg (abs_nonneg _) (dot_self_nonneg _)), ← ENNReal.ofReal_mul (div_nonneg (abs_nonneg _) (dot_self_nonneg _))]
  congr 1
  ring

instance solidAngle_finite : IsFiniteMeasure solidAngle := ⟨by rw [solidAngle_univ]; exact ENNReal.ofReal_lt_top⟩

instance (t : Tri) : IsFiniteMeasure (triMeasure t) := by
  unfold triMeasure
  have h1 : IsFiniteMeasure ((volume.restrict simplex).map (triAt t)) := by
    have : IsFiniteMeasure (volume.restrict simplex) := by
      refine ⟨?_⟩
      rw [Measure.restrict_apply_univ]
      refine lt_of_le_of_lt (measure_mono (t := Ioo (0:ℝ) 1 ×ˢ Ioo (0:ℝ) 1) ?_) ?_
      · rintro q ⟨a, b, c⟩
        exact ⟨⟨a, by linarith⟩, ⟨b, by linarith⟩⟩
      · rw [Measure.volume_eq_prod, Measure.prod_prod]; simp
    infer_instance
  exact Measure.smul_finite _ ENNReal.ofReal_ne_top

open Classical in
/-- The pairing of what leaves each point with what arrives from the points it sees, as a sum over pairs of triangles. -/
theorem Faceted.pairs (h : Faceted Q Fs vertex) {K : Spot → Spot → V3 ℝ → ℝ≥0∞} (hK : Measurable fun q : Spot × Spot × V3 ℝ => K q.1 q.2.1 q.2.2) :
    ∫⁻ x, ∫⁻ d, slant vertex x d * (match hitOf Q x.2 d with | none => 0 | some y => K x y d) ∂solidAngle ∂surf Fs =
      (Fs.map fun s => (Fs.map fun t => ∫⁻ p, ∫⁻ q, geo t.2 p q * (if Sees Q p t.1 q then slant vertex (s.1, p) (dirOf (q - p)) * K (s.1, p) (t.1, q) (dirOf (q - p)) else 0) ∂triMeasure t.2 ∂triMeasure s.2).sum).sum := by
  have hsl := h.measurable_slant
  have hKc : Measurable fun a : (Spot × V3 ℝ) × Spot => K a.1.1 a.2 a.1.2 := hK.comp ((measurable_fst.comp measurable_fst).prodMk (measurable_snd.prodMk (measurable_snd.comp measurable_fst)))
  have e1 : ∀ x : Spot, ∫⁻ d, slant vertex x d * (match hitOf Q x.2 d with | none => 0 | some y => K x y d) ∂solidAngle =
      (Fs.map fun t => ∫⁻ q, geo t.2 x.2 q * (if Sees Q x.2 t.1 q then slant vertex x (dirOf (q - x.2)) * K x (t.1, q) (dirOf (q - x.2)) else 0) ∂triMeasure t.2).sum := by
    intro x
    rw [← h.over x.2 (F := fun y d => slant vertex x d * K x y d)]
    · refine lintegral_congr fun d => ?_
      cases hitOf Q x.2 d <;> simp
    · intro j
      exact (hsl.comp (measurable_const.prodMk measurable_snd)).mul (hK.comp (measurable_const.prodMk ((measurable_const.prodMk measurable_fst).prodMk measurable_snd)))
  have hin : Measurable fun q : Spot × V3 ℝ => slant vertex q.1 q.2 * (match hitOf Q q.1.2 q.2 with | none => 0 | some y => K q.1 y q.2) :=
    hsl.mul (h.measurable_hit (measurable_snd.comp measurable_fst) measurable_snd hKc)
  rw [lintegral_surf hin.lintegral_prod_right']
  refine congrArg List.sum (List.map_congr_left fun s _ => ?_)
  simp_rw [e1]
  rw [lintegral_list_sum]
  intro t _
  have : Measurable fun q : V3 ℝ × V3 ℝ => geo t.2 q.1 q.2 * (if Sees Q q.1 t.1 q.2 then slant vertex (s.1, q.1) (dirOf (q.2 - q.1)) * K (s.1, q.1) (t.1, q.2) (dirOf (q.2 - q.1)) else 0) := by
    have hd : Measurable fun q : V3 ℝ × V3 ℝ => dirOf (q.2 - q.1) := measurable_dirOf.comp (measurable_sub3' measurable_snd measurable_fst)
    refine (measurable_geo t.2).mul (Measurable.ite (h.measurable_sees t.1) ?_ measurable_const)
    exact (hsl.comp ((measurable_const.prodMk measurable_fst).prodMk hd)).mul (hK.comp ((measurable_const.prodMk measurable_fst).prodMk ((measurable_const.prodMk measurable_snd).prodMk hd)))
  exact this.lintegral_prod_right'

open Classical in
/-- Light between two points goes both ways. -/
theorem Faceted.reverse (h : Faceted Q Fs vertex) {K : Spot → Spot → V3 ℝ → ℝ≥0∞} (hK : Measurable fun q : Spot × Spot × V3 ℝ => K q.1 q.2.1 q.2.2) :
    ∫⁻ x, ∫⁻ d, slant vertex x d * (match hitOf Q x.2 d with | none => 0 | some y => K x y d) ∂solidAngle ∂surf Fs =
      ∫⁻ y, ∫⁻ d, slant vertex y d * (match hitOf Q y.2 d with | none => 0 | some x => K x y (-d)) ∂solidAngle ∂surf Fs := by
  have hsl := h.measurable_slant
  rw [h.pairs hK, h.pairs (K := fun y x d => K x y (-d)), sum_sum_comm]
  · refine congrArg List.sum (List.map_congr_left fun t ht => congrArg List.sum (List.map_congr_left fun s hs => ?_))
    have hm : Measurable fun q : V3 ℝ × V3 ℝ => geo t.2 q.1 q.2 * (if Sees Q q.1 t.1 q.2 then slant vertex (s.1, q.1) (dirOf (q.2 - q.1)) * K (s.1, q.1) (t.1, q.2) (dirOf (q.2 - q.1)) else 0) := by
      have hd : Measurable fun q : V3 ℝ × V3 ℝ => dirOf (q.2 - q.1) := measurable_dirOf.comp (measurable_sub3' measurable_snd measurable_fst)
      refine (measurable_geo t.2).mul (Measurable.ite (h.measurable_sees t.1) ?_ measurable_const)
      exact (hsl.comp ((measurable_const.prodMk measurable_fst).prodMk hd)).mul (hK.comp ((measurable_const.prodMk measurable_fst).prodMk ((measurable_const.prodMk measurable_snd).prodMk hd)))
    rw [lintegral_lintegral_swap hm.aemeasurable]
    refine lintegral_congr_ae ((inside_ae t.2).mono fun q hq => lintegral_congr_ae ((inside_ae s.2).mono fun p hp => ?_))
    beta_reduce
    have e := geo_slant h hs ht hp hq
    by_cases h1 : V3.dot (triCross t.2) (q - p) = 0
    · have h1' : V3.dot (dirOf (triCross t.2)) (dirOf (p - q)) = 0 := by rw [dirOf_swap, V3.dot_neg_right, dot_dirOf, h1]; simp
      rw [geo_zero h1, zero_mul, h.slant_eq ht hq, h1']
      simp
    by_cases h2 : V3.dot (triCross s.2) (q - p) = 0
    · have h2' : V3.dot (triCross s.2) (p - q) = 0 := by rw [← neg_sub, V3.dot_neg_right, h2, neg_zero]
      rw [geo_zero h2', zero_mul, h.slant_eq hs hp, dot_dirOf, h2]
      simp
    have hmu : Sees Q p t.1 q ↔ Sees Q q s.1 p := h.both s hs t ht p q hp hq h2 h1
    by_cases hv : Sees Q p t.1 q
    · rw [if_pos hv, if_pos (hmu.mp hv), ← mul_assoc, ← mul_assoc, e, dirOf_swap p q, neg_neg]
    · rw [if_neg hv, if_neg fun hc => hv (hmu.mpr hc), mul_zero, mul_zero]
  · exact hK.comp ((measurable_fst.comp measurable_snd).prodMk (measurable_fst.prodMk (measurable_neg3.comp (measurable_snd.comp measurable_snd))))

end LM.Transport
