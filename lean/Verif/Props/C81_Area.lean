import Verif.Props.C81_Light
import Verif.Props.C81_Material
import Verif.Props.C80_Direct
/-
  C81: next event estimation towards area lights is unbiased.
-/
namespace LM.Solid
open MeasureTheory LM LM.Surface LM.Material LM.Light LM.MathF Set
open scoped ENNReal Real

theorem map_sum_apply {ι α : Type} [MeasurableSpace α] (ts : List ι) (μ : ι → Measure α) (A : Set α) : (ts.map μ).sum A = (ts.map fun t => μ t A).sum := by
  induction ts with
  | nil => simp
  | cons t ts ih => simp [ih]

theorem lintegral_map_sum {ι α : Type} [MeasurableSpace α] (ts : List ι) (μ : ι → Measure α) (f : α → ℝ≥0∞) : ∫⁻ a, f a ∂(ts.map μ).sum = (ts.map fun t => ∫⁻ a, f a ∂μ t).sum := by
  induction ts with
  | nil => simp
  | cons t ts ih => simp [lintegral_add_measure, ih]

theorem restrict_map_sum {ι α : Type} [MeasurableSpace α] (ts : List ι) (μ : ι → Measure α) (A : Set α) : ((ts.map μ).sum).restrict A = (ts.map fun t => (μ t).restrict A).sum := by
  induction ts with
  | nil => simp
  | cons t ts ih => simp [Measure.restrict_add, ih]

theorem ae_map_sum {ι α : Type} [MeasurableSpace α] (ts : List ι) (μ : ι → Measure α) (P : α → Prop) (h : ∀ t ∈ ts, ∀ᵐ a ∂μ t, P a) : ∀ᵐ a ∂(ts.map μ).sum, P a := by
  rw [ae_iff, map_sum_apply]
  refine List.sum_eq_zero fun x hx => ?_
  obtain ⟨t, ht, rfl⟩ := List.mem_map.mp hx
  exact ae_iff.mp (h t ht)

theorem measurable_hitPoint (t : Tri) (x : V3 ℝ) : Measurable (hitPoint t x) := by
  unfold hitPoint
  have h : Measurable fun d : V3 ℝ => V3.dot (triCross t) (t.a - x) / V3.dot (triCross t) d := measurable_const.div (measurable_cdot _)
  exact measurable_add3 measurable_const (measurable_smul3 h measurable_id)

theorem measurable_point (x : V3 ℝ) : MeasurableSet ({x} : Set (V3 ℝ)) := by
  have : ({x} : Set (V3 ℝ)) = {d | d.x = x.x} ∩ ({d | d.y = x.y} ∩ {d | d.z = x.z}) := by
    ext d
    simp only [mem_singleton_iff, mem_inter_iff, mem_ofPred_eq]
    exact ⟨by rintro rfl; exact ⟨rfl, rfl, rfl⟩, fun ⟨a, b, c⟩ => V3.ext a b c⟩
  rw [this]
  exact (measurableSet_eq_fun measurable_x measurable_const).inter ((measurableSet_eq_fun measurable_y measurable_const).inter (measurableSet_eq_fun measurable_z measurable_const))

/-- A point has no area. -/
theorem triMeasure_point (t : Tri) (x : V3 ℝ) : triMeasure t {x} = 0 := by
  unfold triMeasure
  rw [Measure.smul_apply, Measure.map_apply (measurable_triAt t) (measurable_point x), smul_eq_mul]
  by_cases h : twiceArea t = 0
  · rw [h, ENNReal.ofReal_zero, zero_mul]
  · have hN : V3.dot (triCross t) (triCross t) ≠ 0 := by
      intro e; apply h; unfold twiceArea; rw [e, Real.sqrt_zero]
    have hsub : (triAt t ⁻¹' {x}).Subsingleton := by
      intro q hq r hr
      have e : triAt t q = triAt t r := by rw [show triAt t q = x from hq, show triAt t r = x from hr]
      have e1 : V3.cross (triAt t q - t.a) (t.c - t.a) = q.1 • triCross t := by
        unfold triAt triCross; ext <;> simp [V3.cross] <;> ring
      have e2 : V3.cross (triAt t r - t.a) (t.c - t.a) = r.1 • triCross t := by
        unfold triAt triCross; ext <;> simp [V3.cross] <;> ring
      have e3 : V3.cross (t.b - t.a) (triAt t q - t.a) = q.2 • triCross t := by
        unfold triAt triCross; ext <;> simp [V3.cross] <;> ring
      have e4 : V3.cross (t.b - t.a) (triAt t r - t.a) = r.2 • triCross t := by
        unfold triAt triCross; ext <;> simp [V3.cross] <;> ring
      have key : ∀ a b : ℝ, a • triCross t = b • triCross t → a = b := by
        intro a b hab
        have := congrArg (fun v => V3.dot v (triCross t)) hab
        simp only [V3.dot_smul_left] at this
        exact mul_right_cancel₀ hN this
      exact Prod.ext (key _ _ (by rw [← e1, ← e2, e])) (key _ _ (by rw [← e3, ← e4, e]))
    rw [hsub.measure_zero, mul_zero]

/-- The density depends only on the point and the normal of the light. -/
theorem areaPdf_congr (ts : List Tri) (g gL : Geom) (M : Aff ℝ) (wo junk : V3 ℝ) (s : Bool) (hf : g.infinite = false) (hi : gL.infinite = false) (hd : gL.degenerated = false) :
    areaPdfDirect ts g gL M wo = areaPdfDirect ts g (makeOnSurface gL.p gL.n gL.n s junk) M wo := by
  unfold areaPdfDirect geometryTerm
  simp only [hf, hi, hd, makeOnSurface]
  rfl

theorem area_direct_wo {sgn : V3 ℝ → Bool} {junk Ke : V3 ℝ} {ts : List Tri} {M : Aff ℝ} {g : Geom} {us : RayU} {gL : Geom} {wo C : V3 ℝ} (e : (area sgn junk Ke ts).sampleDirect us g M = .ok gL wo C) :
    sampleOnMesh sgn junk ts us M = some gL ∧ wo = -dirOf (gL.p - g.p) := by
  simp only [area] at e
  cases h1 : sampleOnMesh sgn junk ts us M with
  | none => rw [h1] at e; cases e
  | some g1 =>
    rw [h1] at e
    simp only at e
    cases h2 : Material.normalize (g.p - g1.p) with
    | none => rw [h2] at e; cases e
    | some w1 =>
      rw [h2] at e
      simp only at e
      obtain ⟨rfl, rfl⟩ : gL = g1 ∧ wo = w1 := by
        cases h3 : areaPdfDirect ts g g1 M w1 with
        | none => rw [h3] at e; simp [rayOrFail, ray] at e
        | some q =>
          rw [h3] at e
          by_cases hq : q = 0
          · rw [hq, rayOrFail_zero] at e; cases e
          · simp only [rayOrFail, ray, divV, Option.some.injEq, hq, if_false] at e
            injection e with x1 x2
            exact ⟨x1.symm, x2.symm⟩
      refine ⟨rfl, ?_⟩
      unfold Material.normalize at h2
      split at h2
      · cases h2
      · injection h2 with h2
        have hneg : g.p - gL.p = -(gL.p - g.p) := by abel
        have hdd : V3.dot (-(gL.p - g.p)) (-(gL.p - g.p)) = V3.dot (gL.p - g.p) (gL.p - g.p) := by simp [V3.dot]; ring
        rw [← h2, hneg, hdd, smul_neg]
        rfl

/-- The density at a point x with normal n, in terms of the direction and the distance. -/
noncomputable def atPoint (i : ℝ) (g : Geom) (a : V3 ℝ × V3 ℝ) : ℝ :=
  if V3.dot (dirOf (a.1 - g.p)) a.2 < 0 ∧ cosOf g (dirOf (a.1 - g.p)) ≠ 0 then i * V3.dot (a.1 - g.p) (a.1 - g.p) / (cosOf g (dirOf (a.1 - g.p)) * |V3.dot (dirOf (a.1 - g.p)) a.2|) else 0

theorem measurable_atPoint (i : ℝ) (g : Geom) : Measurable (atPoint i g) := by
  have h1 : Measurable fun a : V3 ℝ × V3 ℝ => a.1 - g.p := (measurable_sub3 g.p).comp measurable_fst
  have h2 : Measurable fun a : V3 ℝ × V3 ℝ => dirOf (a.1 - g.p) := measurable_dirOf.comp h1
  have h3 : Measurable fun a : V3 ℝ × V3 ℝ => V3.dot (dirOf (a.1 - g.p)) a.2 := measurable_dot3 h2 measurable_snd
  have h4 : Measurable fun a : V3 ℝ × V3 ℝ => cosOf g (dirOf (a.1 - g.p)) := (measurable_cosOf g).comp h2
  unfold atPoint
  exact Measurable.ite ((measurableSet_lt h3 measurable_const).inter (measurableSet_eq_fun h4 measurable_const).compl) (((measurable_dot3 h1 h1).const_mul _).div (h4.mul (continuous_abs.measurable.comp h3))) measurable_const

theorem atPoint_eq {ts : List Tri} {M : Aff ℝ} {i : ℝ} (hi : transformedInvA ts M = some i) {g : Geom} (hf : g.infinite = false) (junk : V3 ℝ) (s : Bool) (a : V3 ℝ × V3 ℝ) :
    areaPdfDirect ts g (makeOnSurface a.1 a.2 a.2 s junk) M (-dirOf (a.1 - g.p)) = some (atPoint i g a) := by
  rcases (dot_self_nonneg (a.1 - g.p)).eq_or_lt with h0 | h0
  · have e : dirOf (a.1 - g.p) = 0 := by rw [dot_self_zero h0.symm]; ext <;> simp [dirOf]
    unfold areaPdfDirect atPoint
    rw [e]
    have : V3.dot (-0 : V3 ℝ) (makeOnSurface a.1 a.2 a.2 s junk).n = 0 := by simp [V3.dot]
    rw [this]
    simp [V3.dot]
  · obtain ⟨hu, hv⟩ := dirOf_spec h0
    have hr := Real.sqrt_pos.mpr h0
    have := pdf_val hi hf a.2 junk s hu hr
    rw [← hv, add_sub_cancel] at this
    rw [this, Real.sq_sqrt h0.le]
    rfl

/-- The directions in which x sees the triangle, not edge on. -/
def seen (t : Tri) (x : V3 ℝ) : Set (V3 ℝ) := {d | 0 < V3.dot (triCross t) d * V3.dot (triCross t) (t.a - x) ∧ coords t x d ∈ simplex}

theorem measurable_seen (t : Tri) (x : V3 ℝ) : MeasurableSet (seen t x) :=
  (measurableSet_lt measurable_const ((measurable_cdot _).mul_const _)).inter (measurable_coords t x measurableSet_simplex)

theorem seen_hit {t : Tri} {x d : V3 ℝ} (h : d ∈ seen t x) : d ∈ hitSet t x ∧ V3.dot (triCross t) (t.a - x) ≠ 0 := by
  have hD : V3.dot (triCross t) (t.a - x) ≠ 0 := by
    intro e; have := h.1; rw [e, mul_zero] at this; exact lt_irrefl _ this
  exact ⟨(mem_hitSet t x d hD).mpr h, hD⟩

theorem hit_seen {t : Tri} {x d : V3 ℝ} (h : d ∈ hitSet t x) (hd : V3.dot (triCross t) d ≠ 0) : d ∈ seen t x := by
  have hD : V3.dot (triCross t) (t.a - x) ≠ 0 := by
    obtain ⟨s, hs, q, hq, e⟩ := h
    have e1 : V3.dot (triCross t) (x + s • d - t.a) = 0 := by
      rw [e]; simp only [triCross, triAt, V3.dot, V3.cross, V3.add_x, V3.add_y, V3.add_z, V3.smul_x, V3.smul_y, V3.smul_z, V3.sub_x, V3.sub_y, V3.sub_z]; ring
    have e2 : V3.dot (triCross t) (x + s • d - t.a) = s * V3.dot (triCross t) d - V3.dot (triCross t) (t.a - x) := by
      simp only [V3.dot, V3.add_x, V3.add_y, V3.add_z, V3.smul_x, V3.smul_y, V3.smul_z, V3.sub_x, V3.sub_y, V3.sub_z]; ring
    rw [e2] at e1
    intro e3
    rw [e3, sub_zero] at e1
    exact (mul_ne_zero hs.ne' hd) e1
  exact (mem_hitSet t x d hD).mp h

/-- C81 (partial). Next event estimation towards an area light: the expected value of the sampled weight, times whatever the receiving side g does with the light (a function of the point, the normal and the direction),
    is the sum over the triangles of the integral, over the directions d in which g sees the triangle, of the emitted radiance times that function, with respect to the solid angle at g. In particular undefined behaviour has probability 0.
    Missing: transforms that do not scale areas by their determinant (C80_negation_area_scaled). -/
theorem C81_area_direct_partial (sgn : V3 ℝ → Bool) (junk Ke : V3 ℝ) (ts : List Tri) (M : Aff ℝ) (hA : 0 < (ts.map triArea).sum) (hM : M.det ≠ 0) (hS : ScalesArea M ts) (g : Geom) (hf : g.infinite = false) (a b : ℝ)
    (ha : 0 ≤ a ∧ a < 1) (hb : 0 ≤ b ∧ b < 1) (i : Fin 3) (F : V3 ℝ → V3 ℝ → V3 ℝ → ℝ≥0∞) (hF : Measurable fun q : V3 ℝ × V3 ℝ × V3 ℝ => F q.1 q.2.1 q.2.2) : let L := area sgn junk Ke ts
    ∫⁻ u, worthRay i (fun gL wo => F gL.p gL.n wo) (L.sampleDirect ⟨u.1, u.2.1, u.2.2, a, b⟩ g M) ∂uniform3 =
      (ts.map fun t => ∫⁻ d, (hitSet (triMap M t) g.p).indicator
        (fun d => value i (some (L.eval (makeOnSurface (hitPoint (triMap M t) g.p d) (frontNormal M t) (frontNormal M t) (sgn (frontNormal M t)) junk) (-d) false)) * F (hitPoint (triMap M t) g.p d) (frontNormal M t) (-d)) d ∂solidAngleAt g).sum := by
  intro L
  obtain ⟨pA, hp, hpp, hpe⟩ := transformedInvA_pos ts M hA hM
  set σ : Measure (V3 ℝ × V3 ℝ) := (ts.map fun t => ((solidAngleAt g).restrict (seen (triMap M t) g.p)).map fun d => (hitPoint (triMap M t) g.p d, frontNormal M t)).sum with hσ
  have hΦ : ∀ t : Tri, Measurable fun d : V3 ℝ => (hitPoint (triMap M t) g.p d, frontNormal M t) := fun t => (measurable_hitPoint _ _).prodMk measurable_const
  set p : V3 ℝ × V3 ℝ → Option ℝ := fun q => some (atPoint pA g q) with hpdef
  set f : V3 ℝ × V3 ℝ → Option (V3 ℝ) := fun q => some (if V3.dot (-dirOf (q.1 - g.p)) q.2 ≤ 0 then V3.all 0 else Ke) with hfdef
  have hpm : Measurable fun q => dens (p q) := (measurable_atPoint pA g).ennreal_ofReal
  -- unit directions
  have hunit : ∀ᵐ d ∂solidAngleAt g, V3.dot d d = 1 := by
    have hac : solidAngleAt g ≪ solidAngle := by rw [solidAngleAt_eq]; exact withDensity_absolutelyContinuous _ _
    exact hac.ae_le solidAngle_unit
  have hcos : ∀ᵐ d ∂solidAngleAt g, cosOf g d ≠ 0 := by
    rw [solidAngleAt_eq, ae_withDensity_iff (measurable_cosOf g).ennreal_ofReal]
    refine Filter.Eventually.of_forall fun d hd e => hd ?_
    rw [e, ENNReal.ofReal_zero]
  -- the direction towards the point that is seen
  have hdir : ∀ (t : Tri) (d : V3 ℝ), V3.dot d d = 1 → d ∈ seen (triMap M t) g.p → dirOf (hitPoint (triMap M t) g.p d - g.p) = d := by
    intro t d hd hs
    obtain ⟨hh, hD⟩ := seen_hit hs
    obtain ⟨s, hs0, e, _⟩ := hitPoint_spec _ _ _ hD hh
    rw [e, add_sub_cancel_left]
    unfold dirOf
    have : V3.dot (s • d) (s • d) = s * s * V3.dot d d := by simp [V3.dot]; ring
    rw [this, hd, mul_one, Real.sqrt_mul_self hs0.le, smul_smul, one_div, inv_mul_cancel₀ hs0.ne', one_smul]
  have hpar : ∀ t : Tri, ∃ k : ℝ, frontNormal M t = k • triCross (triMap M t) := fun t => by obtain ⟨k, hk, _⟩ := frontNormal_par M hM t; exact ⟨k, hk⟩
  have hden : HasDensityO uniform3 (fun u => (keyW (fun gL _ => (gL.p, gL.n)) (L.sampleDirect ⟨u.1, u.2.1, u.2.2, a, b⟩ g M)).map (·.1)) σ p := by
    refine ⟨hpm.aemeasurable, fun A hAm => ?_⟩
    have hsec : ∀ n, MeasurableSet {x : V3 ℝ | (x, n) ∈ A} := fun n => (measurable_id.prodMk measurable_const) hAm
    obtain ⟨h1, h2⟩ := area_direct_law sgn junk Ke ts M hA hM hS g hf a b (fun n => {x | (x, n) ∈ A}) hsec
    have hset : {u : ℝ × ℝ × ℝ | ∃ a' : V3 ℝ × V3 ℝ, (keyW (fun gL _ => (gL.p, gL.n)) (L.sampleDirect ⟨u.1, u.2.1, u.2.2, a, b⟩ g M)).map (·.1) = some a' ∧ a' ∈ A} =
        {u | ∃ gL wo C, L.sampleDirect ⟨u.1, u.2.1, u.2.2, a, b⟩ g M = .ok gL wo C ∧ gL.p ∈ {x | (x, gL.n) ∈ A}} := by
      ext u
      simp only [mem_ofPred_eq]
      cases L.sampleDirect ⟨u.1, u.2.1, u.2.2, a, b⟩ g M <;> simp [keyW]
    rw [hset]
    refine ⟨h1, h2.trans ?_⟩
    rw [hσ, restrict_map_sum, lintegral_map_sum]
    congr 1
    refine List.map_congr_left fun t _ => ?_
    rw [← lintegral_indicator hAm, lintegral_map (hpm.indicator hAm) (hΦ t), ← lintegral_indicator (measurable_seen _ _)]
    refine lintegral_congr_ae (hunit.mono fun d hd => ?_)
    by_cases hs : d ∈ seen (triMap M t) g.p
    · beta_reduce
      rw [indicator_of_mem hs]
      have hh := (seen_hit hs).1
      by_cases hA' : (hitPoint (triMap M t) g.p d, frontNormal M t) ∈ A
      · rw [indicator_of_mem (show d ∈ {d | d ∈ hitSet (triMap M t) g.p ∧ hitPoint (triMap M t) g.p d ∈ {x | (x, frontNormal M t) ∈ A}} from ⟨hh, hA'⟩), indicator_of_mem hA']
        have := atPoint_eq hp hf junk (sgn (frontNormal M t)) (hitPoint (triMap M t) g.p d, frontNormal M t)
        rw [hdir t d hd hs] at this
        show dens (areaPdfDirect ts g _ M (-d)) = _
        rw [this]
      · rw [indicator_of_notMem (fun h => hA' h.2), indicator_of_notMem hA']
    · beta_reduce
      rw [indicator_of_notMem hs]
      by_cases hm : d ∈ {d | d ∈ hitSet (triMap M t) g.p ∧ hitPoint (triMap M t) g.p d ∈ {x | (x, frontNormal M t) ∈ A}}
      · rw [indicator_of_mem hm]
        have h0 : V3.dot (triCross (triMap M t)) d = 0 := by
          by_contra hne; exact hs (hit_seen hm.1 hne)
        obtain ⟨k, hk⟩ := hpar t
        have : V3.dot (-d) (frontNormal M t) = 0 := by
          rw [hk, V3.dot_smul_right, V3.dot_comm, V3.dot_neg_right, h0]; simp
        show dens (areaPdfDirect ts g _ M (-d)) = 0
        unfold areaPdfDirect
        rw [if_pos (by show V3.dot (-d) (frontNormal M t) ≤ 0; rw [this])]
        simp [dens]
      · rw [indicator_of_notMem hm]
  -- a sampled point coincides with g with probability 0
  have hnull : ∀ᵐ u ∂uniform3, ∀ gL, sampleOnMesh sgn junk ts ⟨u.1, u.2.1, u.2.2, a, b⟩ M = some gL → gL.p ≠ g.p := by
    have hpos := (C80_area_position_partial sgn junk Ke ts M hA hM hS a b (fun _ => g)).2 {g.p} (measurable_point g.p)
    have hz : ∫⁻ x in {g.p}, dens (L.pdfPosition g M) ∂meshMeasure (ts.map (triMap M)) = 0 := by
      rw [setLIntegral_measure_zero]
      unfold meshMeasure
      rw [map_sum_apply]
      exact List.sum_eq_zero fun x hx => by obtain ⟨t, _, rfl⟩ := List.mem_map.mp hx; exact triMeasure_point t g.p
    rw [ae_iff]
    refine measure_mono_null ?_ (hpos.2.trans hz)
    intro u hu
    simp only [mem_ofPred_eq, not_forall, not_not] at hu
    obtain ⟨gL, e, h⟩ := hu
    obtain ⟨C, e2, _⟩ := ray_ok gL 0 (V3.all 1) pA hpp
    refine ⟨gL.p, ?_, h⟩
    show resPoint ((area sgn junk Ke ts).samplePosition _ M) = _
    simp only [area, e, hp, e2, resPoint]
  have hneg : Measurable fun q : V3 ℝ × V3 ℝ => -dirOf (q.1 - g.p) := measurable_neg3.comp (measurable_dirOf.comp ((measurable_sub3 g.p).comp measurable_fst))
  have hvf : ∀ i, Measurable fun q => value i (f q) := by
    intro i
    have hm : Measurable fun q : V3 ℝ × V3 ℝ => if V3.dot (-dirOf (q.1 - g.p)) q.2 ≤ 0 then V3.all 0 else Ke :=
      Measurable.ite (measurableSet_le (measurable_dot3 hneg measurable_snd) measurable_const) measurable_const measurable_const
    exact ENNReal.measurable_ofReal.comp ((measurable_chan i).comp hm)
  have hFm : Measurable fun q : V3 ℝ × V3 ℝ => F q.1 q.2 (-dirOf (q.1 - g.p)) := hF.comp (measurable_fst.prodMk (measurable_snd.prodMk hneg))
  have hmain := worthRay_of (key := fun gL _ => (gL.p, gL.n)) hden (f := f) (fun i => ?_) ?_ ?_ i (fun q => F q.1 q.2 (-dirOf (q.1 - g.p))) ?_
  · have hlhs : ∫⁻ u, worthRay i (fun gL wo => F gL.p gL.n wo) (L.sampleDirect ⟨u.1, u.2.1, u.2.2, a, b⟩ g M) ∂uniform3 =
        ∫⁻ u, worthRay i (fun gL _ => F gL.p gL.n (-dirOf (gL.p - g.p))) (L.sampleDirect ⟨u.1, u.2.1, u.2.2, a, b⟩ g M) ∂uniform3 := by
      refine lintegral_congr fun u => ?_
      cases e : L.sampleDirect ⟨u.1, u.2.1, u.2.2, a, b⟩ g M with
      | ok gL wo C =>
        have hwo := (area_direct_wo e).2
        simp only [worthRay, hwo]
      | fail => rfl
      | undef => rfl
      | unsupported => rfl
    rw [hlhs, hmain, hσ, lintegral_map_sum]
    congr 1
    refine List.map_congr_left fun t _ => ?_
    have hvm : Measurable fun q : V3 ℝ × V3 ℝ => value i (f q) * F q.1 q.2 (-dirOf (q.1 - g.p)) := (hvf i).mul hFm
    rw [lintegral_map hvm (hΦ t), ← lintegral_indicator (measurable_seen _ _)]
    refine lintegral_congr_ae (hunit.mono fun d hd => ?_)
    beta_reduce
    by_cases hs : d ∈ seen (triMap M t) g.p
    · rw [indicator_of_mem hs, indicator_of_mem (seen_hit hs).1]
      simp only [hfdef, hdir t d hd hs]
      rfl
    · rw [indicator_of_notMem hs]
      by_cases hh : d ∈ hitSet (triMap M t) g.p
      · rw [indicator_of_mem hh]
        have h0 : V3.dot (triCross (triMap M t)) d = 0 := by
          by_contra hne; exact hs (hit_seen hh hne)
        obtain ⟨k, hk⟩ := hpar t
        have : V3.dot (-d) (frontNormal M t) = 0 := by
          rw [hk, V3.dot_smul_right, V3.dot_comm, V3.dot_neg_right, h0]; simp
        have e : L.eval (makeOnSurface (hitPoint (triMap M t) g.p d) (frontNormal M t) (frontNormal M t) (sgn (frontNormal M t)) junk) (-d) false = V3.all 0 := by
          show areaEval Ke _ (-d) = _
          unfold areaEval
          rw [if_pos (by show V3.dot (-d) (frontNormal M t) ≤ 0; rw [this])]
        rw [e]
        have : value i (some (V3.all 0)) = 0 := by fin_cases i <;> simp [value, chan, V3.all]
        rw [this, zero_mul]
      · rw [indicator_of_notMem hh]
  · exact (hvf i).aemeasurable
  · filter_upwards [cube_ae, hnull] with u hu hn
    have hval : (⟨u.1, u.2.1, u.2.2, a, b⟩ : RayU).Valid := ⟨hu.1, hu.2.1, hu.2.2, ha, hb⟩
    obtain ⟨gL, hs, hrest⟩ := C46_area_direct sgn junk Ke ts M hA hM ⟨u.1, u.2.1, u.2.2, a, b⟩ hval g hf
    obtain ⟨wo, hno, hest, hfail, hok⟩ := hrest (hn gL hs)
    refine ⟨?_, ?_, ?_⟩
    · intro e
      by_cases hc : V3.dot wo gL.n ≤ 0 ∨ geometryTerm g gL = some 0
      · rw [hfail.mpr hc] at e; cases e
      · obtain ⟨C, e'⟩ := hok hc; rw [e'] at e; cases e
    · intro e
      by_cases hc : V3.dot wo gL.n ≤ 0 ∨ geometryTerm g gL = some 0
      · rw [hfail.mpr hc] at e; cases e
      · obtain ⟨C, e'⟩ := hok hc; rw [e'] at e; cases e
    · intro gL' wo' C e
      obtain ⟨_, P, hP, h0, hPC⟩ := hest gL' wo' C e
      obtain ⟨hs', hwo⟩ := area_direct_wo e
      obtain ⟨g2, t, e2, _, _, hi2, hd2, _⟩ := sampleOnMesh_spec sgn junk ts ⟨u.1, u.2.1, u.2.2, a, b⟩ M hval hA hM
      rw [hs'] at e2; cases e2
      have hP' : areaPdfDirect ts g gL' M wo' = some P := hP
      rw [areaPdf_congr ts g gL' M wo' junk false hf hi2 hd2, hwo, atPoint_eq hp hf junk false (gL'.p, gL'.n)] at hP'
      refine ⟨P, _, hP', rfl, h0, hPC.trans ?_⟩
      show areaEval Ke gL' wo' = _
      unfold areaEval
      rw [hwo]
  · refine ae_map_sum _ _ _ fun t _ => ?_
    have hmeas : MeasurableSet {q : V3 ℝ × V3 ℝ | 0 ≤ atPoint pA g q ∧ (atPoint pA g q = 0 → V3.dot (-dirOf (q.1 - g.p)) q.2 ≤ 0)} := by
      refine (measurableSet_le measurable_const (measurable_atPoint pA g)).inter ?_
      have e : {q : V3 ℝ × V3 ℝ | atPoint pA g q = 0 → V3.dot (-dirOf (q.1 - g.p)) q.2 ≤ 0} = {q | atPoint pA g q = 0}ᶜ ∪ {q | V3.dot (-dirOf (q.1 - g.p)) q.2 ≤ 0} := by
        ext q; simp only [mem_ofPred_eq, mem_union, mem_compl_iff]; tauto
      have e' : MeasurableSet ({q : V3 ℝ × V3 ℝ | atPoint pA g q = 0}ᶜ ∪ {q | V3.dot (-dirOf (q.1 - g.p)) q.2 ≤ 0}) := (measurableSet_eq_fun (measurable_atPoint pA g) measurable_const).compl.union (measurableSet_le (measurable_dot3 hneg measurable_snd) measurable_const)
      rw [← e] at e'
      exact e'
    have hae : ∀ᵐ q ∂(((solidAngleAt g).restrict (seen (triMap M t) g.p)).map fun d => (hitPoint (triMap M t) g.p d, frontNormal M t)), 0 ≤ atPoint pA g q ∧ (atPoint pA g q = 0 → V3.dot (-dirOf (q.1 - g.p)) q.2 ≤ 0) := by
      rw [ae_map_iff (hΦ t).aemeasurable hmeas, ae_restrict_iff' (measurable_seen _ _)]
      filter_upwards [hunit, hcos] with d hd hc hs
      have hdd := hdir t d hd hs
      have hcp : 0 < cosOf g d := lt_of_le_of_ne (cosOf_nonneg _ _) (Ne.symm hc)
      have hgpos : 0 < V3.dot (hitPoint (triMap M t) g.p d - g.p) (hitPoint (triMap M t) g.p d - g.p) := by
        rcases (dot_self_nonneg (hitPoint (triMap M t) g.p d - g.p)).eq_or_lt with h | h
        · rw [dot_self_zero h.symm] at hdd
          have : dirOf (0 : V3 ℝ) = 0 := by ext <;> simp [dirOf]
          rw [this] at hdd
          rw [← hdd] at hd
          simp [V3.dot] at hd
        · exact h
      show 0 ≤ atPoint pA g (hitPoint (triMap M t) g.p d, frontNormal M t) ∧ (atPoint pA g (hitPoint (triMap M t) g.p d, frontNormal M t) = 0 → V3.dot (-dirOf (hitPoint (triMap M t) g.p d - g.p)) (frontNormal M t) ≤ 0)
      unfold atPoint
      simp only [hdd]
      have hdn : V3.dot (-d) (frontNormal M t) = -V3.dot d (frontNormal M t) := by simp [V3.dot]; ring
      by_cases hn : V3.dot d (frontNormal M t) < 0
      · rw [if_pos ⟨hn, hc⟩]
        have : 0 < |V3.dot d (frontNormal M t)| := abs_pos.mpr hn.ne
        have hpos : 0 < pA * V3.dot (hitPoint (triMap M t) g.p d - g.p) (hitPoint (triMap M t) g.p d - g.p) / (cosOf g d * |V3.dot d (frontNormal M t)|) := by positivity
        exact ⟨hpos.le, fun e => absurd e hpos.ne'⟩
      · rw [if_neg (fun h => hn h.1)]
        exact ⟨le_refl _, fun _ => by rw [hdn]; linarith⟩
    refine hae.mono ?_
    rintro q ⟨h0, h1⟩
    refine ⟨_, _, rfl, rfl, h0, fun e => ?_⟩
    rw [if_pos (h1 e)]
    ext <;> simp [V3.all]
  · exact hFm

example : 0 < (exSquare.map triArea).sum ∧ (Aff.det (⟨⟨1, 0, 0⟩, ⟨0, 1, 0⟩, ⟨0, 0, 1⟩, ⟨3, 4, 5⟩⟩ : Aff ℝ)) ≠ 0 ∧ ScalesArea ⟨⟨1, 0, 0⟩, ⟨0, 1, 0⟩, ⟨0, 0, 1⟩, ⟨3, 4, 5⟩⟩ exSquare ∧ exGeom.infinite = false :=
  ⟨by rw [exSquare_area]; norm_num, by simp [Aff.det, V3.dot, V3.cross], scales_id _, rfl⟩

end LM.Solid
