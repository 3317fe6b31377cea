import Verif.Props.C80_Solid
import Verif.Model.Math
import Mathlib.MeasureTheory.Integral.IntervalIntegral.Periodic
import Mathlib.MeasureTheory.Group.FundamentalDomain
import Mathlib.Analysis.SpecialFunctions.Trigonometric.Inverse
/-
  C80: the sampling functions have the densities they report.
-/
namespace LM.Solid
open MeasureTheory LM Set LM.MathF
open scoped ENNReal Real

theorem lintegral_uniform2 {f : ℝ × ℝ → ℝ≥0∞} (hf : Measurable f) : ∫⁻ u, f u ∂uniform2 = ∫⁻ u0 in Ioo 0 1, ∫⁻ u1 in Ioo 0 1, f (u0, u1) := by
  unfold uniform2
  rw [show (volume : Measure (ℝ × ℝ)) = volume.prod volume from rfl, ← Measure.prod_restrict, lintegral_prod _ hf.aemeasurable]
  rw [restrict_Ioo_eq_restrict_Ico]

theorem period_lemma {F : ℝ → ℝ≥0∞} (hF : Measurable F) (hp : ∀ t, F (t + 2 * π) = F t) :
    ∫⁻ u in Ioo 0 1, F (2 * π * u) = ENNReal.ofReal (1 / (2 * π)) * ∫⁻ t in Ioo (-π) π, F t := by
  have h2 : (0 : ℝ) < 2 * π := by positivity
  -- scale to (0, 2π)
  have h1 : ∫⁻ t in Ioo 0 (2 * π), F t = ENNReal.ofReal (2 * π) * ∫⁻ u in Ioo 0 1, F (2 * π * u) := by
    have him : (fun u : ℝ => 2 * π * u) '' Ioo 0 1 = Ioo 0 (2 * π) := by
      ext t; constructor
      · rintro ⟨u, hu, rfl⟩; exact ⟨by have := hu.1; positivity, by nlinarith [hu.2]⟩
      · intro ht; refine ⟨t / (2 * π), ⟨by have := ht.1; positivity, by rw [div_lt_one h2]; exact ht.2⟩, ?_⟩; field_simp
    rw [← him, lintegral_image_eq_lintegral_abs_deriv_mul measurableSet_Ioo (f' := fun _ => 2 * π)]
    · rw [← lintegral_const_mul' _ _ ENNReal.ofReal_ne_top, abs_of_pos h2]
    · intro x _
      have := (hasDerivAt_id x).const_mul (2 * π)
      rw [mul_one] at this
      exact this.hasDerivWithinAt
    · intro a _ b _ hab; exact mul_left_cancel₀ h2.ne' hab
  -- shift the period
  have h3 : ∫⁻ t in Ioc 0 (0 + 2 * π), F t = ∫⁻ t in Ioc (-π) (-π + 2 * π), F t := by
    refine (isAddFundamentalDomain_Ioc h2 0).setLIntegral_eq (isAddFundamentalDomain_Ioc h2 (-π)) F ?_
    rintro ⟨g, hg⟩ x
    obtain ⟨n, rfl⟩ := AddSubgroup.mem_zmultiples_iff.mp hg
    have hP : Function.Periodic F (2 * π) := hp
    have := hP.zsmul n x
    rw [add_comm] at this
    exact this
  rw [zero_add, show -π + 2 * π = π by ring, ← restrict_Ioo_eq_restrict_Ioc, ← restrict_Ioo_eq_restrict_Ioc] at h3
  rw [← h3, h1, ← mul_assoc, ← ENNReal.ofReal_mul (by positivity), one_div, inv_mul_cancel₀ h2.ne', ENNReal.ofReal_one, one_mul]

theorem measurable_safeSqrt : Measurable safeSqrt := (measurable_const.max measurable_id).sqrt

theorem measurable_sphere : Measurable (fun u : ℝ × ℝ => sampleUniformSphere u.1 u.2) := by
  have hz : Measurable (fun u : ℝ × ℝ => 1 - 2 * u.1) := measurable_const.sub (measurable_const.mul measurable_fst)
  have hr : Measurable (fun u : ℝ × ℝ => safeSqrt (1 - (1 - 2 * u.1) * (1 - 2 * u.1))) := measurable_safeSqrt.comp (measurable_const.sub (hz.mul hz))
  have ht : Measurable (fun u : ℝ × ℝ => 2 * Real.pi * u.2) := measurable_const.mul measurable_snd
  exact measurable_mk (hr.mul (Real.measurable_cos.comp ht)) (hr.mul (Real.measurable_sin.comp ht)) hz

theorem measurable_disk : Measurable (fun u : ℝ × ℝ => sampleUniformDisk u.1 u.2) := by
  have hr : Measurable (fun u : ℝ × ℝ => safeSqrt u.1) := measurable_safeSqrt.comp measurable_fst
  have ht : Measurable (fun u : ℝ × ℝ => 2 * Real.pi * u.2) := measurable_const.mul measurable_snd
  exact (hr.mul (Real.measurable_cos.comp ht)).prodMk (hr.mul (Real.measurable_sin.comp ht))

theorem measurable_cosine : Measurable (fun u : ℝ × ℝ => sampleCosineWeighted u.1 u.2) := by
  have hr : Measurable (fun u : ℝ × ℝ => safeSqrt u.1) := measurable_safeSqrt.comp measurable_fst
  have ht : Measurable (fun u : ℝ × ℝ => 2 * Real.pi * u.2) := measurable_const.mul measurable_snd
  have hx := hr.mul (Real.measurable_cos.comp ht)
  have hy := hr.mul (Real.measurable_sin.comp ht)
  exact measurable_mk hx hy (measurable_safeSqrt.comp ((measurable_const.sub (hx.mul hx)).sub (hy.mul hy)))

/-- Change of variables on an interval. -/
theorem cov {a b c d : ℝ} (φ φ' : ℝ → ℝ) (hd : ∀ x ∈ Ioo a b, HasDerivAt φ (φ' x) x) (hi : InjOn φ (Ioo a b)) (him : φ '' Ioo a b = Ioo c d) (F : ℝ → ℝ≥0∞) :
    ∫⁻ y in Ioo c d, F y = ∫⁻ x in Ioo a b, ENNReal.ofReal |φ' x| * F (φ x) := by
  rw [← him]
  exact lintegral_image_eq_lintegral_abs_deriv_mul measurableSet_Ioo (fun x hx => (hd x hx).hasDerivWithinAt) hi F

/-- u = (1 - cos θ)/2 -/
theorem cov_sphere (F : ℝ → ℝ≥0∞) : ∫⁻ u in Ioo 0 1, F u = ∫⁻ θ in Ioo 0 π, ENNReal.ofReal (Real.sin θ / 2) * F ((1 - Real.cos θ) / 2) := by
  have h := cov (a := 0) (b := π) (c := 0) (d := 1) (fun θ => (1 - Real.cos θ) / 2) (fun θ => Real.sin θ / 2) ?_ ?_ ?_ F
  · rw [h]
    refine setLIntegral_congr_fun measurableSet_Ioo fun θ hθ => ?_
    rw [abs_of_nonneg (by have := Real.sin_nonneg_of_nonneg_of_le_pi hθ.1.le hθ.2.le; positivity)]
  · intro x _
    have := ((Real.hasDerivAt_cos x).const_sub 1).div_const 2
    rw [neg_neg] at this
    exact this
  · intro x hx y hy hxy
    have : Real.cos x = Real.cos y := by simp only at hxy; linarith
    exact Real.injOn_cos ⟨hx.1.le, hx.2.le⟩ ⟨hy.1.le, hy.2.le⟩ this
  · ext u; constructor
    · rintro ⟨θ, hθ, rfl⟩
      have h1 : Real.cos θ < 1 := by
        have := Real.cos_lt_cos_of_nonneg_of_le_pi le_rfl hθ.2.le hθ.1
        rwa [Real.cos_zero] at this
      have h2 : -1 < Real.cos θ := by
        have := Real.cos_lt_cos_of_nonneg_of_le_pi hθ.1.le le_rfl hθ.2
        rwa [Real.cos_pi] at this
      constructor <;> simp only <;> linarith
    · intro hu
      refine ⟨Real.arccos (1 - 2 * u), ⟨Real.arccos_pos.mpr (by linarith [hu.1]), ?_⟩, ?_⟩
      · refine lt_of_le_of_ne (Real.arccos_le_pi _) ?_
        intro hc
        have := Real.arccos_eq_pi.mp hc
        linarith [hu.2]
      · simp only
        rw [Real.cos_arccos (by linarith [hu.2]) (by linarith [hu.1])]; ring

/-- u = sin² θ -/
theorem cov_cosine (F : ℝ → ℝ≥0∞) : ∫⁻ u in Ioo 0 1, F u = ∫⁻ θ in Ioo 0 (π / 2), ENNReal.ofReal (2 * Real.sin θ * Real.cos θ) * F (Real.sin θ ^ 2) := by
  have h := cov (a := 0) (b := π / 2) (c := 0) (d := 1) (fun θ => Real.sin θ ^ 2) (fun θ => 2 * Real.sin θ * Real.cos θ) ?_ ?_ ?_ F
  · rw [h]
    refine setLIntegral_congr_fun measurableSet_Ioo fun θ hθ => ?_
    have h1 := Real.sin_pos_of_pos_of_lt_pi hθ.1 (by linarith [hθ.2, Real.pi_pos])
    have h2 := Real.cos_pos_of_mem_Ioo ⟨by linarith [hθ.1, Real.pi_pos], hθ.2⟩
    rw [abs_of_nonneg (by positivity)]
  · intro x _
    have := (Real.hasDerivAt_sin x).fun_pow 2
    simpa using this
  · intro x hx y hy hxy
    have h1 := Real.sin_pos_of_pos_of_lt_pi hx.1 (by linarith [hx.2, Real.pi_pos])
    have h2 := Real.sin_pos_of_pos_of_lt_pi hy.1 (by linarith [hy.2, Real.pi_pos])
    have : Real.sin x = Real.sin y := by
      simp only at hxy
      nlinarith [sq_nonneg (Real.sin x - Real.sin y)]
    exact Real.injOn_sin ⟨by linarith [hx.1, Real.pi_pos], hx.2.le⟩ ⟨by linarith [hy.1, Real.pi_pos], hy.2.le⟩ this
  · ext u; constructor
    · rintro ⟨θ, hθ, rfl⟩
      have h1 := Real.sin_pos_of_pos_of_lt_pi hθ.1 (by linarith [hθ.2, Real.pi_pos])
      have h2 := Real.cos_pos_of_mem_Ioo ⟨by linarith [hθ.1, Real.pi_pos], hθ.2⟩
      have h3 := Real.sin_sq_add_cos_sq θ
      constructor <;> simp only <;> nlinarith
    · intro hu
      have hs : 0 < Real.sqrt u := Real.sqrt_pos.mpr hu.1
      have hs1 : Real.sqrt u < 1 := by rw [Real.sqrt_lt' one_pos]; simpa using hu.2
      refine ⟨Real.arcsin (Real.sqrt u), ⟨Real.arcsin_pos.mpr hs, Real.arcsin_lt_pi_div_two.mpr hs1⟩, ?_⟩
      simp only
      rw [Real.sin_arcsin (by linarith) hs1.le, Real.sq_sqrt hu.1.le]

/-- u = ρ² -/
theorem cov_sq (F : ℝ → ℝ≥0∞) : ∫⁻ u in Ioo 0 1, F u = ∫⁻ s in Ioo (0 : ℝ) 1, ENNReal.ofReal (2 * s) * F (s ^ 2) := by
  have h := cov (a := 0) (b := 1) (c := 0) (d := 1) (fun s => s ^ 2) (fun s => 2 * s) ?_ ?_ ?_ F
  · rw [h]
    refine setLIntegral_congr_fun measurableSet_Ioo fun s hs => ?_
    rw [abs_of_nonneg (by have := hs.1; positivity)]
  · intro x _
    have := (hasDerivAt_id' x).fun_pow 2
    simpa using this
  · intro x hx y hy hxy
    simp only at hxy
    nlinarith [hx.1, hy.1, sq_nonneg (x - y)]
  · ext u; constructor
    · rintro ⟨s, hs, rfl⟩
      exact ⟨by have := hs.1; positivity, by simp only; nlinarith [hs.1, hs.2]⟩
    · intro hu
      exact ⟨Real.sqrt u, ⟨Real.sqrt_pos.mpr hu.1, by rw [Real.sqrt_lt' one_pos]; simpa using hu.2⟩, Real.sq_sqrt hu.1.le⟩

theorem measurable_spherePoint {f : V3 ℝ → ℝ≥0∞} (hf : Measurable f) (r z : ℝ) : Measurable fun t : ℝ => f ⟨r * Real.cos t, r * Real.sin t, z⟩ :=
  hf.comp (measurable_mk (measurable_const.mul Real.measurable_cos) (measurable_const.mul Real.measurable_sin) measurable_const)

theorem azimuth {f : V3 ℝ → ℝ≥0∞} (hf : Measurable f) (r z : ℝ) :
    ∫⁻ u in Ioo 0 1, f ⟨r * Real.cos (2 * π * u), r * Real.sin (2 * π * u), z⟩ = ENNReal.ofReal (1 / (2 * π)) * ∫⁻ t in Ioo (-π) π, f ⟨r * Real.cos t, r * Real.sin t, z⟩ :=
  period_lemma (measurable_spherePoint hf r z) (fun t => by rw [Real.cos_add_two_pi, Real.sin_add_two_pi])

/-- sample_uniform_sphere has the density 1/(4π) that pdf_uniform_sphere reports, with respect to solid angle: the probability of every measurable set of directions is its solid angle over 4π. -/
theorem C80_sphere : uniform2.map (fun u => sampleUniformSphere u.1 u.2) = ENNReal.ofReal (1 / (4 * π)) • solidAngle := by
  refine Measure.ext_of_lintegral _ fun f hf => ?_
  rw [lintegral_map hf measurable_sphere, lintegral_smul_measure, lintegral_spherical hf, smul_eq_mul, lintegral_uniform2 (f := fun u => f (sampleUniformSphere u.1 u.2)) (hf.comp measurable_sphere)]
  rw [cov_sphere, ← lintegral_const_mul' _ _ ENNReal.ofReal_ne_top]
  refine setLIntegral_congr_fun measurableSet_Ioo fun θ hθ => ?_
  have hs := Real.sin_nonneg_of_nonneg_of_le_pi hθ.1.le hθ.2.le
  have hz : 1 - 2 * ((1 - Real.cos θ) / 2) = Real.cos θ := by ring
  have hr : safeSqrt (1 - Real.cos θ * Real.cos θ) = Real.sin θ := by
    unfold safeSqrt
    have : 1 - Real.cos θ * Real.cos θ = Real.sin θ ^ 2 := by have := Real.sin_sq_add_cos_sq θ; linarith
    rw [this, max_eq_right (sq_nonneg _), Real.sqrt_sq hs]
  simp only [sampleUniformSphere, hz, hr]
  rw [azimuth hf, lintegral_const_mul' _ _ ENNReal.ofReal_ne_top, ← mul_assoc, ← mul_assoc, ← ENNReal.ofReal_mul (by positivity), ← ENNReal.ofReal_mul (by positivity)]
  congr 2
  field_simp
  ring

/-- The solid angle of all directions is 4π. -/
theorem solidAngle_univ : solidAngle univ = ENNReal.ofReal (4 * π) := by
  have h := congrArg (fun μ : Measure (V3 ℝ) => μ univ) C80_sphere
  simp only [Measure.map_apply measurable_sphere MeasurableSet.univ, preimage_univ, Measure.smul_apply, smul_eq_mul] at h
  have hu : uniform2 univ = 1 := by
    unfold uniform2
    rw [Measure.restrict_apply_univ, show (volume : Measure (ℝ × ℝ)) = volume.prod volume from rfl, Measure.prod_prod]
    simp
  rw [hu] at h
  have h4 : ENNReal.ofReal (4 * π) * ENNReal.ofReal (1 / (4 * π)) = 1 := by
    rw [← ENNReal.ofReal_mul (by positivity), mul_one_div_cancel (by positivity), ENNReal.ofReal_one]
  calc solidAngle univ = (ENNReal.ofReal (4 * π) * ENNReal.ofReal (1 / (4 * π))) * solidAngle univ := by rw [h4, one_mul]
    _ = ENNReal.ofReal (4 * π) * (ENNReal.ofReal (1 / (4 * π)) * solidAngle univ) := by rw [mul_assoc]
    _ = _ := by rw [← h, mul_one]

/-- sample_cosine_weighted has the density cos θ / π with respect to solid angle on the upper hemisphere (1/π with respect to projected solid angle). -/
theorem C80_cosine : uniform2.map (fun u => sampleCosineWeighted u.1 u.2) = solidAngle.withDensity (fun d => ENNReal.ofReal (d.z / π)) := by
  have hdm : Measurable (fun d : V3 ℝ => ENNReal.ofReal (d.z / π)) := (measurable_z.div_const _).ennreal_ofReal
  refine Measure.ext_of_lintegral _ fun f hf => ?_
  rw [lintegral_map hf measurable_cosine, lintegral_withDensity_eq_lintegral_mul _ hdm hf]
  rw [lintegral_spherical (hdm.mul hf), lintegral_uniform2 (f := fun u => f (sampleCosineWeighted u.1 u.2)) (hf.comp measurable_cosine), cov_cosine]
  have hsub : ∫⁻ θ in Ioo 0 π, ∫⁻ t in Ioo (-π) π, ENNReal.ofReal (Real.sin θ) * ((fun d : V3 ℝ => ENNReal.ofReal (d.z / π)) * f) ⟨Real.sin θ * Real.cos t, Real.sin θ * Real.sin t, Real.cos θ⟩ =
      ∫⁻ θ in Ioo 0 (π / 2), ∫⁻ t in Ioo (-π) π, ENNReal.ofReal (Real.sin θ) * (ENNReal.ofReal (Real.cos θ / π) * f ⟨Real.sin θ * Real.cos t, Real.sin θ * Real.sin t, Real.cos θ⟩) := by
    rw [← lintegral_indicator measurableSet_Ioo, ← lintegral_indicator measurableSet_Ioo]
    refine lintegral_congr fun θ => ?_
    by_cases h1 : θ ∈ Ioo 0 (π / 2)
    · rw [indicator_of_mem h1, indicator_of_mem (show θ ∈ Ioo 0 π from ⟨h1.1, by linarith [h1.2, Real.pi_pos]⟩)]
      rfl
    · rw [indicator_of_notMem h1]
      by_cases h2 : θ ∈ Ioo 0 π
      · rw [indicator_of_mem h2]
        have h3 : π / 2 ≤ θ := by by_contra hc; exact h1 ⟨h2.1, not_le.mp hc⟩
        have h4 : Real.cos θ ≤ 0 := Real.cos_nonpos_of_pi_div_two_le_of_le h3 (by linarith [h2.2, Real.pi_pos])
        have h5 : ENNReal.ofReal (Real.cos θ / π) = 0 := ENNReal.ofReal_eq_zero.mpr (div_nonpos_of_nonpos_of_nonneg h4 Real.pi_pos.le)
        simp [h5]
      · rw [indicator_of_notMem h2]
  rw [hsub]
  refine setLIntegral_congr_fun measurableSet_Ioo fun θ hθ => ?_
  have hs := Real.sin_pos_of_pos_of_lt_pi hθ.1 (by linarith [hθ.2, Real.pi_pos])
  have hc := Real.cos_pos_of_mem_Ioo ⟨by linarith [hθ.1, Real.pi_pos], hθ.2⟩
  have hr : safeSqrt (Real.sin θ ^ 2) = Real.sin θ := by
    unfold safeSqrt; rw [max_eq_right (sq_nonneg _), Real.sqrt_sq hs.le]
  have hz : ∀ t, safeSqrt (1 - Real.sin θ * Real.cos t * (Real.sin θ * Real.cos t) - Real.sin θ * Real.sin t * (Real.sin θ * Real.sin t)) = Real.cos θ := by
    intro t
    have : 1 - Real.sin θ * Real.cos t * (Real.sin θ * Real.cos t) - Real.sin θ * Real.sin t * (Real.sin θ * Real.sin t) = Real.cos θ ^ 2 := by
      have h1 := Real.sin_sq_add_cos_sq θ
      have h2 := Real.sin_sq_add_cos_sq t
      linear_combination -Real.sin θ ^ 2 * h2 - h1
    rw [this]
    unfold safeSqrt; rw [max_eq_right (sq_nonneg _), Real.sqrt_sq hc.le]
  simp only [sampleCosineWeighted, hr, hz]
  rw [azimuth hf, lintegral_const_mul' _ _ ENNReal.ofReal_ne_top, lintegral_const_mul' _ _ ENNReal.ofReal_ne_top, ← mul_assoc, ← mul_assoc, ← ENNReal.ofReal_mul (by positivity), ← ENNReal.ofReal_mul (by positivity)]
  congr 2
  field_simp

/-- sample_uniform_disk is uniform in the unit disk: the density is 1/π with respect to area. -/
theorem C80_disk : uniform2.map (fun u => sampleUniformDisk u.1 u.2) = ENNReal.ofReal (1 / π) • (volume : Measure (ℝ × ℝ)).restrict {q | q.1 ^ 2 + q.2 ^ 2 ≤ 1} := by
  have hms : MeasurableSet {q : ℝ × ℝ | q.1 ^ 2 + q.2 ^ 2 ≤ 1} := measurableSet_le ((measurable_fst.pow_const 2).add (measurable_snd.pow_const 2)) measurable_const
  refine Measure.ext_of_lintegral _ fun f hf => ?_
  rw [lintegral_map hf measurable_disk, lintegral_smul_measure, smul_eq_mul, ← lintegral_indicator hms, lintegral_polar (hf.indicator hms)]
  rw [lintegral_uniform2 (f := fun u => f (sampleUniformDisk u.1 u.2)) (hf.comp measurable_disk), cov_sq]
  have hsub : ∫⁻ ρ in Ioi (0 : ℝ), ∫⁻ t in Ioo (-π) π, ENNReal.ofReal ρ * {q : ℝ × ℝ | q.1 ^ 2 + q.2 ^ 2 ≤ 1}.indicator f (ρ * Real.cos t, ρ * Real.sin t) =
      ∫⁻ ρ in Ioo (0 : ℝ) 1, ∫⁻ t in Ioo (-π) π, ENNReal.ofReal ρ * f (ρ * Real.cos t, ρ * Real.sin t) := by
    rw [restrict_Ioo_eq_restrict_Ioc (a := (0 : ℝ)) (b := 1), ← lintegral_indicator measurableSet_Ioi, ← lintegral_indicator measurableSet_Ioc]
    refine lintegral_congr fun ρ => ?_
    have hq : ∀ t, (ρ * Real.cos t) ^ 2 + (ρ * Real.sin t) ^ 2 = ρ ^ 2 := by
      intro t
      have h2 := Real.sin_sq_add_cos_sq t
      linear_combination ρ ^ 2 * h2
    by_cases h1 : ρ ∈ Ioc (0 : ℝ) 1
    · rw [indicator_of_mem h1, indicator_of_mem (show ρ ∈ Ioi (0 : ℝ) from h1.1)]
      refine lintegral_congr fun t => ?_
      rw [indicator_of_mem]
      rw [mem_ofPred_eq, hq]
      nlinarith [h1.1, h1.2]
    · rw [indicator_of_notMem h1]
      by_cases h2 : ρ ∈ Ioi (0 : ℝ)
      · rw [indicator_of_mem h2]
        have h3 : 1 < ρ := by by_contra hc; exact h1 ⟨h2, not_lt.mp hc⟩
        have : ∀ t, {q : ℝ × ℝ | q.1 ^ 2 + q.2 ^ 2 ≤ 1}.indicator f (ρ * Real.cos t, ρ * Real.sin t) = 0 := by
          intro t
          rw [indicator_of_notMem]
          rw [mem_ofPred_eq, hq]
          nlinarith
        simp [this]
      · rw [indicator_of_notMem h2]
  rw [hsub, ← lintegral_const_mul' _ _ ENNReal.ofReal_ne_top]
  refine setLIntegral_congr_fun measurableSet_Ioo fun s hs => ?_
  have hs0 : 0 < s := hs.1
  have hr : safeSqrt (s ^ 2) = s := by
    unfold safeSqrt; rw [max_eq_right (sq_nonneg _), Real.sqrt_sq hs0.le]
  simp only [sampleUniformDisk, hr]
  rw [period_lemma (F := fun t => f (s * Real.cos t, s * Real.sin t)) (hf.comp ((measurable_const.mul Real.measurable_cos).prodMk (measurable_const.mul Real.measurable_sin))) (fun t => by rw [Real.cos_add_two_pi, Real.sin_add_two_pi]),
    lintegral_const_mul' _ _ ENNReal.ofReal_ne_top, ← mul_assoc, ← mul_assoc, ← ENNReal.ofReal_mul (by positivity), ← ENNReal.ofReal_mul (by positivity)]
  congr 2
  field_simp

/-- w = s u -/
theorem cov_scale {s : ℝ} (hs : 0 < s) (F : ℝ → ℝ≥0∞) : ∫⁻ w in Ioo 0 s, F w = ENNReal.ofReal s * ∫⁻ u in Ioo 0 1, F (u * s) := by
  have h := cov (a := 0) (b := 1) (c := 0) (d := s) (fun u => u * s) (fun _ => s) ?_ ?_ ?_ F
  · rw [h, ← lintegral_const_mul' _ _ ENNReal.ofReal_ne_top, abs_of_pos hs]
  · intro x _
    have := (hasDerivAt_id' x).mul_const s
    rwa [one_mul] at this
  · intro x _ y _ hxy; exact mul_right_cancel₀ hs.ne' hxy
  · ext w; constructor
    · rintro ⟨u, hu, rfl⟩; exact ⟨by have := hu.1; positivity, by simp only; nlinarith [hu.2]⟩
    · intro hw; exact ⟨w / s, ⟨by have := hw.1; positivity, by rw [div_lt_one hs]; exact hw.2⟩, by simp only; field_simp⟩

/-- a = 1 - s -/
theorem cov_flip (F : ℝ → ℝ≥0∞) : ∫⁻ a in Ioo (0 : ℝ) 1, F a = ∫⁻ s in Ioo (0 : ℝ) 1, F (1 - s) := by
  have h := cov (a := 0) (b := 1) (c := 0) (d := 1) (fun s => 1 - s) (fun _ => -1) ?_ ?_ ?_ F
  · rw [h]; simp
  · intro x _; exact (hasDerivAt_id' x).const_sub 1
  · intro x _ y _ hxy; simp only at hxy; linarith
  · ext a; constructor
    · rintro ⟨s, hs, rfl⟩; exact ⟨by simp only; linarith [hs.2], by simp only; linarith [hs.1]⟩
    · intro ha; exact ⟨1 - a, ⟨by linarith [ha.2], by linarith [ha.1]⟩, by simp⟩

/-- Barycentric coordinates of the point sampled on a triangle (light_area.cpp:49-54). -/
noncomputable def baryOf (u : ℝ × ℝ) : ℝ × ℝ := (1 - safeSqrt u.1, u.2 * safeSqrt u.1)

theorem measurable_bary : Measurable baryOf := by
  have hr : Measurable (fun u : ℝ × ℝ => safeSqrt u.1) := measurable_safeSqrt.comp measurable_fst
  exact (measurable_const.sub hr).prodMk (measurable_snd.mul hr)

theorem measurableSet_simplex : MeasurableSet simplex :=
  (measurableSet_lt measurable_const measurable_fst).inter ((measurableSet_lt measurable_const measurable_snd).inter (measurableSet_lt (measurable_fst.add measurable_snd) measurable_const))

theorem bary_uniform : uniform2.map baryOf = (2 : ℝ≥0∞) • (volume : Measure (ℝ × ℝ)).restrict simplex := by
  refine Measure.ext_of_lintegral _ fun f hf => ?_
  rw [lintegral_map hf measurable_bary, lintegral_smul_measure, smul_eq_mul, ← lintegral_indicator measurableSet_simplex,
    show (volume : Measure (ℝ × ℝ)) = volume.prod volume from rfl, lintegral_prod _ (hf.indicator measurableSet_simplex).aemeasurable]
  rw [lintegral_uniform2 (f := fun u => f (baryOf u)) (hf.comp measurable_bary), cov_sq]
  have hsub : ∫⁻ a : ℝ, ∫⁻ b : ℝ, simplex.indicator f (a, b) = ∫⁻ a in Ioo (0 : ℝ) 1, ∫⁻ b in Ioo 0 (1 - a), f (a, b) := by
    rw [← lintegral_indicator measurableSet_Ioo]
    refine lintegral_congr fun a => ?_
    by_cases h1 : a ∈ Ioo (0 : ℝ) 1
    · rw [indicator_of_mem h1, ← lintegral_indicator measurableSet_Ioo]
      refine lintegral_congr fun b => ?_
      by_cases h2 : b ∈ Ioo 0 (1 - a)
      · rw [indicator_of_mem h2, indicator_of_mem]
        exact ⟨h1.1, h2.1, by show a + b < 1; linarith [h2.2]⟩
      · rw [indicator_of_notMem h2, indicator_of_notMem]
        rintro ⟨_, h3, h4⟩
        exact h2 ⟨h3, by have : a + b < 1 := h4; linarith⟩
    · rw [indicator_of_notMem h1]
      have : ∀ b, simplex.indicator f (a, b) = 0 := by
        intro b
        rw [indicator_of_notMem]
        rintro ⟨h2, h3, h4⟩
        exact h1 ⟨h2, by have h5 : a + b < 1 := h4; have h6 : 0 < b := h3; linarith⟩
      simp [this]
  rw [hsub, cov_flip (fun a => ∫⁻ b in Ioo 0 (1 - a), f (a, b)), ← lintegral_const_mul' _ _ (by norm_num)]
  refine setLIntegral_congr_fun measurableSet_Ioo fun s hs => ?_
  have hs0 : 0 < s := hs.1
  have hr : safeSqrt (s ^ 2) = s := by
    unfold safeSqrt; rw [max_eq_right (sq_nonneg _), Real.sqrt_sq hs0.le]
  simp only [baryOf, hr, sub_sub_cancel]
  rw [cov_scale hs0, ENNReal.ofReal_mul (by norm_num), mul_assoc]
  norm_num

end LM.Solid
