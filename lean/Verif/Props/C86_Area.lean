import Verif.Props.C82_Area
/-
  C86: directions in which a triangle is seen, and its points.
-/
namespace LM.Transport
open MeasureTheory LM LM.Surface LM.Material LM.Light LM.MathF LM.Path LM.Render LM.Solid Set
open scoped ENNReal

/-- Solid angle at x per area at the point p of a triangle. -/
noncomputable def geo (t : Tri) (x p : V3 ℝ) : ℝ≥0∞ := ENNReal.ofReal (|V3.dot (dirOf (triCross t)) (dirOf (p - x))| / V3.dot (p - x) (p - x))

theorem triCross_at (t : Tri) (x : V3 ℝ) (q : ℝ × ℝ) : V3.dot (triCross t) (triAt t q - x) = V3.dot (triCross t) (t.a - x) := by
  simp only [triCross, triAt, V3.dot, V3.cross, V3.add_x, V3.add_y, V3.add_z, V3.smul_x, V3.smul_y, V3.smul_z, V3.sub_x, V3.sub_y, V3.sub_z]; ring

theorem dot_dirOf (a b : V3 ℝ) : V3.dot (dirOf a) (dirOf b) = V3.dot a b / (Real.sqrt (V3.dot a a) * Real.sqrt (V3.dot b b)) := by
  unfold dirOf
  rw [V3.dot_smul_right, V3.dot_comm (_ • a) b, V3.dot_smul_right, V3.dot_comm b a]
  rw [div_mul_eq_mul_div, one_mul, div_mul_eq_mul_div, one_mul, div_div]

theorem geo_zero {t : Tri} {x p : V3 ℝ} (h : V3.dot (triCross t) (p - x) = 0) : geo t x p = 0 := by
  unfold geo
  rw [dot_dirOf, h]
  simp

theorem measurable_sub3' {α : Type} [MeasurableSpace α] {f g : α → V3 ℝ} (hf : Measurable f) (hg : Measurable g) : Measurable fun a => f a - g a :=
  measurable_mk (f := fun a => f a - g a) ((measurable_x.comp hf).sub (measurable_x.comp hg)) ((measurable_y.comp hf).sub (measurable_y.comp hg)) ((measurable_z.comp hf).sub (measurable_z.comp hg))

theorem measurable_geo (t : Tri) : Measurable fun q : V3 ℝ × V3 ℝ => geo t q.1 q.2 := by
  have h : Measurable fun q : V3 ℝ × V3 ℝ => q.2 - q.1 := measurable_sub3' measurable_snd measurable_fst
  unfold geo
  exact ((continuous_abs.measurable.comp ((measurable_cdot _).comp (measurable_dirOf.comp h))).div (measurable_dot3 h h)).ennreal_ofReal

theorem lintegral_tri (t : Tri) {f : V3 ℝ → ℝ≥0∞} (hf : Measurable f) : ∫⁻ p, f p ∂triMeasure t = ENNReal.ofReal (twiceArea t) * ∫⁻ q in simplex, f (triAt t q) := by
  unfold triMeasure
  rw [lintegral_smul_measure, lintegral_map hf (measurable_triAt t), smul_eq_mul]

/-- The barycentric coordinates of a point. -/
noncomputable def baryAt (t : Tri) (p : V3 ℝ) : ℝ × ℝ :=
  (V3.dot (triCross t) (V3.cross (p - t.a) (t.c - t.a)) / V3.dot (triCross t) (triCross t), V3.dot (triCross t) (V3.cross (t.b - t.a) (p - t.a)) / V3.dot (triCross t) (triCross t))

theorem measurable_baryAt (t : Tri) : Measurable (baryAt t) := by
  have h := measurable_sub3 t.a
  have hx := measurable_x.comp h
  have hy := measurable_y.comp h
  have hz := measurable_z.comp h
  refine Measurable.prodMk ?_ ?_
  · refine ((measurable_cdot _).comp (measurable_mk (f := fun p : V3 ℝ => V3.cross (p - t.a) (t.c - t.a)) ?_ ?_ ?_)).div_const _
    · exact (hy.mul_const _).sub (measurable_const.mul hz)
    · exact (hz.mul_const _).sub (measurable_const.mul hx)
    · exact (hx.mul_const _).sub (measurable_const.mul hy)
  · refine ((measurable_cdot _).comp (measurable_mk (f := fun p : V3 ℝ => V3.cross (t.b - t.a) (p - t.a)) ?_ ?_ ?_)).div_const _
    · exact (measurable_const.mul hz).sub (hy.mul_const _)
    · exact (measurable_const.mul hx).sub (hz.mul_const _)
    · exact (measurable_const.mul hy).sub (hx.mul_const _)

theorem baryAt_at (t : Tri) (h : V3.dot (triCross t) (triCross t) ≠ 0) (q : ℝ × ℝ) : baryAt t (triAt t q) = q := by
  have e1 : V3.dot (triCross t) (V3.cross (triAt t q - t.a) (t.c - t.a)) = q.1 * V3.dot (triCross t) (triCross t) := by
    simp only [triCross, triAt, V3.dot, V3.cross, V3.add_x, V3.add_y, V3.add_z, V3.smul_x, V3.smul_y, V3.smul_z, V3.sub_x, V3.sub_y, V3.sub_z]; ring
  have e2 : V3.dot (triCross t) (V3.cross (t.b - t.a) (triAt t q - t.a)) = q.2 * V3.dot (triCross t) (triCross t) := by
    simp only [triCross, triAt, V3.dot, V3.cross, V3.add_x, V3.add_y, V3.add_z, V3.smul_x, V3.smul_y, V3.smul_z, V3.sub_x, V3.sub_y, V3.sub_z]; ring
  unfold baryAt
  rw [e1, e2, mul_div_cancel_right₀ _ h, mul_div_cancel_right₀ _ h]

theorem measurable_inside_tri (t : Tri) (h : V3.dot (triCross t) (triCross t) ≠ 0) : MeasurableSet {p | Inside t p} := by
  have e : {p | Inside t p} = {p | triAt t (baryAt t p) - p = 0} ∩ baryAt t ⁻¹' simplex := by
    ext p
    simp only [mem_ofPred_eq, mem_inter_iff, mem_preimage]
    constructor
    · rintro ⟨q, hq, rfl⟩
      rw [baryAt_at t h]
      exact ⟨sub_self _, hq⟩
    · rintro ⟨h1, h2⟩
      exact ⟨_, h2, (sub_eq_zero.mp h1).symm⟩
  rw [e]
  refine MeasurableSet.inter ?_ (measurable_baryAt t measurableSet_simplex)
  exact measurable_sub3' ((measurable_triAt t).comp (measurable_baryAt t)) measurable_id (measurable_point 0)

theorem inside_ae (t : Tri) : ∀ᵐ p ∂triMeasure t, Inside t p := by
  by_cases h : twiceArea t = 0
  · unfold triMeasure
    simp [h]
  · have hN : V3.dot (triCross t) (triCross t) ≠ 0 := by
      intro e; apply h; unfold twiceArea; rw [e, Real.sqrt_zero]
    unfold triMeasure
    refine Measure.ae_smul_measure ?_ _
    rw [ae_map_iff (measurable_triAt t).aemeasurable (measurable_inside_tri t hN)]
    exact (ae_restrict_mem measurableSet_simplex).mono fun q hq => ⟨q, hq, rfl⟩

/-- Integrals over the directions in which a triangle is seen are integrals over the points of the triangle. -/
theorem tri_solid (t : Tri) (x : V3 ℝ) {F : V3 ℝ → ℝ≥0∞} (hF : Measurable F) : ∫⁻ d in seen t x, F d ∂solidAngle = ∫⁻ p, geo t x p * F (dirOf (p - x)) ∂triMeasure t := by
  have hg : Measurable fun p => geo t x p * F (dirOf (p - x)) := ((measurable_geo t).comp measurable_prodMk_left).mul (hF.comp (measurable_dirOf.comp (measurable_sub3 x)))
  rw [lintegral_tri t hg]
  set D := V3.dot (triCross t) (t.a - x) with hD
  by_cases hD0 : D = 0
  · have h1 : seen t x = ∅ := by
      ext d
      simp only [mem_empty_iff_false, iff_false]
      intro h
      exact (seen_hit h).2 hD0
    have h2 : ∀ q, geo t x (triAt t q) = 0 := fun q => geo_zero (by rw [triCross_at]; exact hD0)
    simp [h1, h2]
  · have hN0 : 0 < twiceArea t := by
      unfold twiceArea
      refine Real.sqrt_pos.mpr ?_
      have h : V3.dot (t.a - x) (triCross t) ≠ 0 := by rw [V3.dot_comm]; exact hD0
      exact dot_pos_of_ne h
    have hdet : det3 (t.b - t.a) (t.c - t.a) (t.a - x) = D := rfl
    have hsub : seen t x = {d : V3 ℝ | 0 < V3.dot (V3.cross (t.b - t.a) (t.c - t.a)) d * det3 (t.b - t.a) (t.c - t.a) (t.a - x)} ∩ seen t x := by
      ext d
      exact ⟨fun h => ⟨h.1, h⟩, fun h => h.2⟩
    rw [hsub, inter_comm, ← Measure.restrict_restrict (measurable_seen t x), ← lintegral_indicator (measurable_seen t x), lintegral_plane (by rw [hdet]; exact hD0) (hF.indicator (measurable_seen t x)), hdet,
      ← lintegral_const_mul' _ _ ENNReal.ofReal_ne_top, ← lintegral_indicator measurableSet_simplex]
    refine lintegral_congr fun q => ?_
    rw [planePt_tri]
    set P := triAt t q - x with hP
    have hPN : V3.dot (triCross t) P = D := triCross_at t x q
    have hPp : 0 < V3.dot P P := dot_pos_of_ne (n := triCross t) (by rw [hPN]; exact hD0)
    obtain ⟨hu, hPe⟩ := dirOf_spec hPp
    have hLp : 0 < Real.sqrt (V3.dot P P) := Real.sqrt_pos.mpr hPp
    have hx : x + Real.sqrt (V3.dot P P) • dirOf P = triAt t q := by rw [← hPe, hP]; abel
    obtain ⟨hc, hNd⟩ := coords_at t x hD0 hLp.ne' (dirOf P) q hx
    have hmem : dirOf P ∈ seen t x ↔ q ∈ simplex := by
      unfold seen
      simp only [mem_ofPred_eq, hc]
      refine ⟨fun h => h.2, fun h => ⟨?_, h⟩⟩
      rw [hNd, ← hD, div_mul_eq_mul_div]
      exact div_pos (mul_self_pos.mpr hD0) hLp
    by_cases hq : q ∈ simplex
    · rw [indicator_of_mem (hmem.mpr hq), indicator_of_mem hq, ← mul_assoc]
      congr 1
      unfold geo
      rw [← hP, ← ENNReal.ofReal_mul hN0.le]
      congr 1
      rw [dot_dirOf, hPN, show Real.sqrt (V3.dot (triCross t) (triCross t)) = twiceArea t from rfl, abs_div, abs_of_pos (mul_pos hN0 hLp)]
      have e : V3.dot P P = Real.sqrt (V3.dot P P) ^ 2 := (Real.sq_sqrt hPp.le).symm
      rw [e, Real.sqrt_sq hLp.le]
      field_simp
    · rw [indicator_of_notMem (fun h => hq (hmem.mp h)), indicator_of_notMem hq, mul_zero]

end LM.Transport
