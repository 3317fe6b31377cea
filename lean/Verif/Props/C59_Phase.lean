import Verif.Props.C57_Volume
import Verif.Props.C45_Material
import Mathlib.MeasureTheory.Integral.IntervalIntegral.FundThmCalculus
import Mathlib.Analysis.SpecialFunctions.Integrals.Basic
namespace LM.Volume
open LM LM.MathF LM.Surface LM.Material LM.Bound

/-! ### Specification -/

/-- The Henyey-Greenstein density (per solid angle) for scattering cosine x. -/
noncomputable def hgDensity (g x : ℝ) : ℝ := (1 - g ^ 2) / (4 * Real.pi * (1 + g ^ 2 - 2 * g * x) ^ (3 / 2 : ℝ))

/-- Mass of the directions whose scattering cosine is at most c: a ring of cosine x has solid angle 2π dx. -/
noncomputable def hgMass (g c : ℝ) : ℝ := ∫ x in (-1 : ℝ)..c, 2 * Real.pi * hgDensity g x

/-- Importance sampling of a phase function: a unit direction, with positive density, and weight · density = value. -/
def PhaseEst (ph : Phase) : Prop :=
  ∀ u0 u1 wi, 0 ≤ u0 → u0 < 1 → 0 ≤ u1 → u1 < 1 → V3.dot wi wi = 1 →
    ∃ wo C p f, ph.sampleDirection u0 u1 wi = .ok wo C ∧ V3.dot wo wo = 1 ∧ ph.pdfDirection wi wo = some p ∧ ph.eval wi wo = some f ∧ 0 < p ∧ p • C = f

/-! ### Lemmas -/

theorem base_pos (g x : ℝ) (hg : |g| < 1) (h1 : -1 ≤ x) (h2 : x ≤ 1) : 0 < 1 + g ^ 2 - 2 * g * x := by
  obtain ⟨a, b⟩ := abs_lt.mp hg
  rcases le_total 0 g with h | h
  · nlinarith [mul_nonneg h (sub_nonneg.mpr h2), sq_nonneg (1 - g), sq_pos_of_pos (sub_pos.mpr b)]
  · nlinarith [mul_nonneg (neg_nonneg.mpr h) (by linarith : 0 ≤ x + 1), sq_pos_of_pos (by linarith : 0 < 1 + g)]

theorem rpow_three_halves (t : ℝ) (h : 0 < t) : t ^ (3 / 2 : ℝ) = t * Real.sqrt t := by
  have e : (3 / 2 : ℝ) = 1 + 1 / 2 := by norm_num
  rw [e, Real.rpow_add h, Real.rpow_one, ← Real.sqrt_eq_rpow]

theorem hgDensity_pos (g x : ℝ) (hg : |g| < 1) (h1 : -1 ≤ x) (h2 : x ≤ 1) : 0 < hgDensity g x := by
  have hb := base_pos g x hg h1 h2
  obtain ⟨a, b⟩ := abs_lt.mp hg
  have : 0 < 1 - g ^ 2 := by nlinarith
  unfold hgDensity
  have := Real.pi_pos
  have := Real.rpow_pos_of_pos hb (3 / 2 : ℝ)
  positivity

/-- Antiderivative of 2π · density. -/
theorem hg_deriv (g x : ℝ) (hg0 : g ≠ 0) (hb : 0 < 1 + g ^ 2 - 2 * g * x) :
    HasDerivAt (fun y => (1 - g ^ 2) / (2 * g) / Real.sqrt (1 + g ^ 2 - 2 * g * y)) (2 * Real.pi * hgDensity g x) x := by
  have hs := Real.sqrt_pos.mpr hb
  have d1 : HasDerivAt (fun y : ℝ => 1 + g ^ 2 - 2 * g * y) (-(2 * g)) x := by
    have := ((hasDerivAt_id x).const_mul (2 * g)).const_sub (1 + g ^ 2)
    simpa using this
  have d2 := (hasDerivAt_const x ((1 - g ^ 2) / (2 * g))).fun_div (d1.sqrt hb.ne') hs.ne'
  refine d2.congr_deriv ?_
  unfold hgDensity
  rw [rpow_three_halves _ hb]
  have hp := Real.pi_pos
  have hsq := Real.sq_sqrt hb.le
  set s := Real.sqrt (1 + g ^ 2 - 2 * g * x) with hsdef
  rw [← hsq]
  field_simp
  ring

theorem hgMass_eq (g c : ℝ) (hg : |g| < 1) (hg0 : g ≠ 0) (h1 : -1 ≤ c) (h2 : c ≤ 1) :
    hgMass g c = (1 - g ^ 2) / (2 * g) * (1 / Real.sqrt (1 + g ^ 2 - 2 * g * c) - 1 / (1 + g)) := by
  obtain ⟨a, b⟩ := abs_lt.mp hg
  have hx : ∀ x ∈ Set.uIcc (-1 : ℝ) c, -1 ≤ x ∧ x ≤ 1 := by
    intro x hx
    rw [Set.uIcc_of_le h1] at hx
    exact ⟨hx.1, le_trans hx.2 h2⟩
  have hd : ∀ x ∈ Set.uIcc (-1 : ℝ) c, HasDerivAt (fun y => (1 - g ^ 2) / (2 * g) / Real.sqrt (1 + g ^ 2 - 2 * g * y)) (2 * Real.pi * hgDensity g x) x :=
    fun x h => hg_deriv g x hg0 (base_pos g x hg (hx x h).1 (hx x h).2)
  have hc : ContinuousOn (fun x => 2 * Real.pi * hgDensity g x) (Set.uIcc (-1 : ℝ) c) := by
    apply ContinuousOn.mul continuousOn_const
    unfold hgDensity
    apply ContinuousOn.div continuousOn_const
    · apply ContinuousOn.mul continuousOn_const
      apply ContinuousOn.rpow_const
      · fun_prop
      · intro x h
        exact .inl (base_pos g x hg (hx x h).1 (hx x h).2).ne'
    · intro x h
      have := Real.rpow_pos_of_pos (base_pos g x hg (hx x h).1 (hx x h).2) (3 / 2 : ℝ)
      have := Real.pi_pos
      positivity
  rw [hgMass, intervalIntegral.integral_eq_sub_of_hasDerivAt hd hc.intervalIntegrable]
  have e : Real.sqrt (1 + g ^ 2 - 2 * g * -1) = 1 + g := by
    rw [show 1 + g ^ 2 - 2 * g * -1 = (1 + g) ^ 2 by ring, Real.sqrt_sq (by linarith)]
  rw [e]
  ring

theorem hgMass_zero (c : ℝ) : hgMass 0 c = (c + 1) / 2 := by
  have hp := Real.pi_pos
  have : ∀ x : ℝ, 2 * Real.pi * hgDensity 0 x = 1 / 2 := by
    intro x; unfold hgDensity; simp; field_simp; norm_num
  simp only [hgMass, this, intervalIntegral.integral_const, smul_eq_mul]
  ring

/-- The value of pdf_direction is the Henyey-Greenstein density of the scattering cosine -(wi·wo). -/
theorem hgPdf_eq (g : ℝ) (wi wo : V3 ℝ) (hg : |g| < 1) (h1 : -1 ≤ V3.dot (-wi) wo) (h2 : V3.dot (-wi) wo ≤ 1) : hgPdf g wi wo = some (hgDensity g (V3.dot (-wi) wo)) := by
  have hb := base_pos g _ hg h1 h2
  have hn : V3.dot (-wi) wo = -V3.dot wi wo := by simp [V3.dot]; ring
  have e : 1 + g * g + 2 * g * V3.dot wi wo = 1 + g ^ 2 - 2 * g * V3.dot (-wi) wo := by rw [hn]; ring
  have hs := Real.sqrt_pos.mpr hb
  unfold hgPdf
  simp only [e, divF, (mul_pos hb hs).ne', if_false, Option.map_some, Option.some.injEq]
  unfold hgDensity
  rw [rpow_three_halves _ hb]
  have hp := Real.pi_pos
  field_simp

/-- The sampled cosine: defined, in [-1,1]. -/
theorem hgCos_range (g u : ℝ) (hg : |g| < 1) (h0 : 0 ≤ u) (h1 : u ≤ 1) : ∃ c, hgCos g u = some c ∧ -1 ≤ c ∧ c ≤ 1 ∧
    (Eps ≤ |g| → ∃ q, 0 < q ∧ q = (1 - g ^ 2) / (1 - g + 2 * g * u) ∧ 1 + g ^ 2 - 2 * g * c = q ^ 2) ∧ (|g| < Eps → c = 1 - 2 * u) := by
  by_cases h : |g| < Eps
  · exact ⟨1 - 2 * u, by simp [hgCos, h], by linarith, by linarith, fun h' => absurd h (not_lt.mpr h'), fun _ => rfl⟩
  · obtain ⟨a, b⟩ := abs_lt.mp hg
    have hg0 : g ≠ 0 := by
      rintro rfl; apply h; simp [Eps]
    have hD : 0 < 1 - g + 2 * g * u := by
      rcases le_total 0 g with h' | h'
      · nlinarith [mul_nonneg h' h0]
      · nlinarith [mul_nonneg (neg_nonneg.mpr h') (sub_nonneg.mpr h1)]
    have hn : 0 < 1 - g ^ 2 := by nlinarith
    have h2g : 2 * g ≠ 0 := mul_ne_zero two_ne_zero hg0
    set q := (1 - g ^ 2) / (1 - g + 2 * g * u) with hq
    have hq' : (1 - g * g) / (1 - g + 2 * g * u) = q := by rw [hq, pow_two]
    have qpos : 0 < q := div_pos hn hD
    refine ⟨(1 + g * g - q * q) / (2 * g), ?_, ?_⟩
    · simp only [hgCos, h, if_false, divF, hD.ne', h2g, Option.bind_eq_bind, Option.bind_some, hq']
    have key : 1 + g ^ 2 - 2 * g * ((1 + g * g - q * q) / (2 * g)) = q ^ 2 := by field_simp; ring
    have qD : q * (1 - g + 2 * g * u) = 1 - g ^ 2 := by rw [hq]; exact div_mul_cancel₀ _ hD.ne'
    have lo : 1 - |g| ≤ q := by
      rw [hq, le_div_iff₀ hD]
      rcases abs_cases g with ⟨e, hs⟩ | ⟨e, hs⟩ <;> rw [e] <;> nlinarith [mul_nonneg h0 (sub_nonneg.mpr h1), mul_nonneg (sub_nonneg.mpr h1) (by linarith : 0 ≤ 1 - g), mul_nonneg h0 (by linarith : 0 ≤ 1 + g)]
    have hi : q ≤ 1 + |g| := by
      rw [hq, div_le_iff₀ hD]
      rcases abs_cases g with ⟨e, hs⟩ | ⟨e, hs⟩ <;> rw [e] <;> nlinarith [mul_nonneg h0 (sub_nonneg.mpr h1), mul_nonneg (sub_nonneg.mpr h1) (by linarith : 0 ≤ 1 - g), mul_nonneg h0 (by linarith : 0 ≤ 1 + g)]
    have q1 : (1 - |g|) ^ 2 ≤ q ^ 2 := pow_le_pow_left₀ (by linarith) lo 2
    have q2 : q ^ 2 ≤ (1 + |g|) ^ 2 := pow_le_pow_left₀ qpos.le hi 2
    have ab := sq_abs g
    refine ⟨?_, ?_, fun _ => ⟨q, qpos, rfl, key⟩, fun h' => absurd h' h⟩
    · rcases abs_cases g with ⟨e, hs⟩ | ⟨e, hs⟩ <;> rw [e] at q1 q2
      · rw [le_div_iff₀ (by positivity)]; nlinarith
      · rw [le_div_iff_of_neg (by linarith)]; nlinarith
    · rcases abs_cases g with ⟨e, hs⟩ | ⟨e, hs⟩ <;> rw [e] at q1 q2
      · rw [div_le_iff₀ (by positivity)]; nlinarith
      · rw [div_le_iff_of_neg (by linarith)]; nlinarith

theorem hg_sample (sgn : V3 ℝ → Bool) (g u0 u1 : ℝ) (wi : V3 ℝ) (hg : |g| < 1) (h0 : 0 ≤ u0) (h1 : u0 ≤ 1) (hw : V3.dot wi wi = 1) :
    ∃ wo c, hgCos g u0 = some c ∧ (Volume.hg sgn g).sampleDirection u0 u1 wi = .ok wo (V3.all 1) ∧ V3.dot wo wo = 1 ∧ V3.dot (-wi) wo = c ∧ -1 ≤ c ∧ c ≤ 1 := by
  obtain ⟨c, hc, l, r, _⟩ := hgCos_range g u0 hg h0 h1
  have hw' : V3.dot (-wi) (-wi) = 1 := by rw [← hw]; simp [V3.dot]
  have ho := C32_basis (-wi) (sgn (-wi)) hw'
  have e : V3.dot (⟨safeSqrt (1 - c * c) * Real.cos (2 * Real.pi * u1), safeSqrt (1 - c * c) * Real.sin (2 * Real.pi * u1), c⟩ : V3 ℝ)
      ⟨safeSqrt (1 - c * c) * Real.cos (2 * Real.pi * u1), safeSqrt (1 - c * c) * Real.sin (2 * Real.pi * u1), c⟩ = 1 := by
    have := safeSqrt_sq (show 0 ≤ 1 - c * c by nlinarith)
    have t := Real.sin_sq_add_cos_sq (2 * Real.pi * u1)
    simp only [V3.dot]
    linear_combination (safeSqrt (1 - c * c) * safeSqrt (1 - c * c)) * t + this
  obtain ⟨f1, f2, _⟩ := C32_frame _ _ _ (⟨safeSqrt (1 - c * c) * Real.cos (2 * Real.pi * u1), safeSqrt (1 - c * c) * Real.sin (2 * Real.pi * u1), c⟩ : V3 ℝ)
    ⟨safeSqrt (1 - c * c) * Real.cos (2 * Real.pi * u1), safeSqrt (1 - c * c) * Real.sin (2 * Real.pi * u1), c⟩ ho
  exact ⟨_, c, hc, by simp only [LM.Volume.hg, hc]; rfl, by rw [f1, e], by rw [V3.dot_comm, f2], l, r⟩

/-! ### Theorems -/

/-- C59. phase::hg, |g| ≥ Eps: the direction is a unit vector whose scattering cosine c satisfies: mass of {cosine ≤ c} = u0; and the reported density is that of the distribution. Missing: 0 < |g| < Eps (C59_negation_small_g). -/
theorem C59_inversion_partial (sgn : V3 ℝ → Bool) (g u0 u1 : ℝ) (wi : V3 ℝ) (hg : |g| < 1) (hE : Eps ≤ |g|) (h0 : 0 ≤ u0) (h1 : u0 ≤ 1) (hw : V3.dot wi wi = 1) :
    ∃ wo C, (Volume.hg sgn g).sampleDirection u0 u1 wi = .ok wo C ∧ V3.dot wo wo = 1 ∧ -1 ≤ V3.dot (-wi) wo ∧ V3.dot (-wi) wo ≤ 1 ∧ hgMass g (V3.dot (-wi) wo) = u0 ∧
      (Volume.hg sgn g).pdfDirection wi wo = some (hgDensity g (V3.dot (-wi) wo)) := by
  obtain ⟨wo, c, hc, e, hu, hd, l, r⟩ := hg_sample sgn g u0 u1 wi hg h0 h1 hw
  refine ⟨wo, _, e, hu, by rw [hd]; exact l, by rw [hd]; exact r, ?_, hgPdf_eq g wi wo hg (by rw [hd]; exact l) (by rw [hd]; exact r)⟩
  obtain ⟨c', hc', _, _, hq, _⟩ := hgCos_range g u0 hg h0 h1
  rw [hc] at hc'; cases hc'
  obtain ⟨q, qpos, hqe, hqq⟩ := hq hE
  have hg0 : g ≠ 0 := by
    rintro rfl; simp [Eps] at hE; norm_num at hE
  obtain ⟨a, b⟩ := abs_lt.mp hg
  rw [hd, hgMass_eq g c hg hg0 l r, hqq, Real.sqrt_sq qpos.le, hqe]
  have hn : 1 - g ^ 2 ≠ 0 := by nlinarith
  have hD : 1 - g + 2 * g * u0 ≠ 0 := by
    intro h; rw [h, div_zero] at hqe; linarith
  have h1g : 1 + g ≠ 0 := by linarith
  field_simp
  ring

/-- C59, isotropic case g = 0: the mass of {cosine ≤ c} is 1 - u0. -/
theorem C59_isotropic (sgn : V3 ℝ → Bool) (u0 u1 : ℝ) (wi : V3 ℝ) (h0 : 0 ≤ u0) (h1 : u0 ≤ 1) (hw : V3.dot wi wi = 1) :
    ∃ wo C, (Volume.hg sgn 0).sampleDirection u0 u1 wi = .ok wo C ∧ V3.dot wo wo = 1 ∧ hgMass 0 (V3.dot (-wi) wo) = 1 - u0 ∧
      (Volume.hg sgn 0).pdfDirection wi wo = some (1 / (4 * Real.pi)) := by
  have hg : |(0 : ℝ)| < 1 := by simp
  obtain ⟨wo, c, hc, e, hu, hd, l, r⟩ := hg_sample sgn 0 u0 u1 wi hg h0 h1 hw
  refine ⟨wo, _, e, hu, ?_, ?_⟩
  · obtain ⟨c', hc', _, _, _, hq⟩ := hgCos_range 0 u0 hg h0 h1
    rw [hc] at hc'; cases hc'
    rw [hd, hgMass_zero, hq (by simp [Eps])]; ring
  · have := hgPdf_eq 0 wi wo hg (by rw [hd]; exact l) (by rw [hd]; exact r)
    refine Eq.trans this ?_
    simp [hgDensity]

/-- C59. The density is positive and its mass over all cosines is one, for every |g| < 1. -/
theorem C59_normalised (g : ℝ) (hg : |g| < 1) : hgMass g 1 = 1 ∧ ∀ x, -1 ≤ x → x ≤ 1 → 0 < hgDensity g x := by
  refine ⟨?_, fun x => hgDensity_pos g x hg⟩
  by_cases hg0 : g = 0
  · rw [hg0, hgMass_zero]; norm_num
  · obtain ⟨a, b⟩ := abs_lt.mp hg
    rw [hgMass_eq g 1 hg hg0 (by norm_num) (le_refl _), show 1 + g ^ 2 - 2 * g * 1 = (1 - g) ^ 2 by ring, Real.sqrt_sq (by linarith)]
    have h1 : 1 - g ≠ 0 := by linarith
    have h2 : 1 + g ≠ 0 := by linarith
    field_simp
    ring

/-- C59. The azimuth 2π u1 is measured in a frame around the forward direction: for fixed u0 the sampled directions are the circle of that cosine. -/
theorem C59_azimuth (sgn : V3 ℝ → Bool) (g u0 u1 : ℝ) (wi : V3 ℝ) (hg : |g| < 1) (h0 : 0 ≤ u0) (h1 : u0 ≤ 1) (hw : V3.dot wi wi = 1) :
    ∃ t b c wo C, Orthonormal t b (-wi) ∧ t = (orthonormalBasis (-wi) (sgn (-wi))).1 ∧ hgCos g u0 = some c ∧ (Volume.hg sgn g).sampleDirection u0 u1 wi = .ok wo C ∧
      V3.dot wo t = Real.sqrt (1 - c ^ 2) * Real.cos (2 * Real.pi * u1) ∧ V3.dot wo b = Real.sqrt (1 - c ^ 2) * Real.sin (2 * Real.pi * u1) := by
  obtain ⟨c, hc, l, r, _⟩ := hgCos_range g u0 hg h0 h1
  have hw' : V3.dot (-wi) (-wi) = 1 := by rw [← hw]; simp [V3.dot]
  have ho := C32_basis (-wi) (sgn (-wi)) hw'
  obtain ⟨_, _, f3, f4⟩ := C32_frame _ _ _ (⟨safeSqrt (1 - c * c) * Real.cos (2 * Real.pi * u1), safeSqrt (1 - c * c) * Real.sin (2 * Real.pi * u1), c⟩ : V3 ℝ)
    ⟨safeSqrt (1 - c * c) * Real.cos (2 * Real.pi * u1), safeSqrt (1 - c * c) * Real.sin (2 * Real.pi * u1), c⟩ ho
  have es : safeSqrt (1 - c * c) = Real.sqrt (1 - c ^ 2) := by rw [safeSqrt_of_nonneg (by nlinarith), pow_two]
  exact ⟨_, _, c, _, _, ho, rfl, hc, by simp only [LM.Volume.hg, hc]; rfl, by rw [f3, es], by rw [f4, es]⟩

/-- C59/C45. Weight times density equals the phase function, for both phase functions. -/
theorem C59_weights (sgn : V3 ℝ → Bool) (g : ℝ) (hg : |g| < 1) : PhaseEst (Volume.hg sgn g) ∧ PhaseEst isotropic := by
  refine ⟨fun u0 u1 wi h0 h1 _ _ hw => ?_, fun u0 u1 wi h0 h1 _ _ hw => ?_⟩
  · obtain ⟨wo, c, hc, e, hu, hd, l, r⟩ := hg_sample sgn g u0 u1 wi hg h0 h1.le hw
    have ep := hgPdf_eq g wi wo hg (by rw [hd]; exact l) (by rw [hd]; exact r)
    refine ⟨wo, _, _, _, e, hu, ep, by simp only [LM.Volume.hg, ep, Option.map_some]; rfl, hgDensity_pos g _ hg (by rw [hd]; exact l) (by rw [hd]; exact r), ?_⟩
    ext <;> simp [V3.all]
  · have hp := Real.pi_pos
    exact ⟨_, _, _, _, rfl, (C34_sphere u0 u1 h0 h1.le).1, rfl, rfl, by positivity, by ext <;> simp [V3.all]⟩

/-- C59. The isotropic phase function samples the uniform distribution it reports: mass of {z ≤ c} is 1 - u0, density 1/(4π). -/
theorem C59_isotropic_phase (u0 u1 : ℝ) (wi : V3 ℝ) (h0 : 0 ≤ u0) (h1 : u0 ≤ 1) : ∃ wo C, isotropic.sampleDirection u0 u1 wi = .ok wo C ∧ V3.dot wo wo = 1 ∧
    isotropic.pdfDirection wi wo = some (1 / (4 * Real.pi)) ∧ ∫ _ in (-1 : ℝ)..wo.z, 2 * Real.pi * (1 / (4 * Real.pi)) = 1 - u0 := by
  obtain ⟨a, b⟩ := C34_sphere u0 u1 h0 h1
  refine ⟨_, _, rfl, a, rfl, ?_⟩
  have hp := Real.pi_pos
  rw [b, intervalIntegral.integral_const, smul_eq_mul]
  field_simp; ring

/-- C59 fails for 0 < |g| < Eps: the isotropic branch is taken while the reported density is the anisotropic one; the cumulative mass at the sampled cosine is neither u0 nor 1 - u0. -/
theorem C59_negation_small_g (sgn : V3 ℝ → Bool) (g u1 : ℝ) (h0 : g ≠ 0) (hE : |g| < Eps) (wi : V3 ℝ) (hw : V3.dot wi wi = 1) :
    ∃ u0 wo C, 0 ≤ u0 ∧ u0 < 1 ∧ (Volume.hg sgn g).sampleDirection u0 u1 wi = .ok wo C ∧
      (Volume.hg sgn g).pdfDirection wi wo = some (hgDensity g (V3.dot (-wi) wo)) ∧ hgMass g (V3.dot (-wi) wo) ≠ u0 ∧ hgMass g (V3.dot (-wi) wo) ≠ 1 - u0 := by
  have hg : |g| < 1 := lt_trans hE (by unfold Eps; norm_num)
  obtain ⟨wo, c, hc, e, hu, hd, l, r⟩ := hg_sample sgn g (1 / 2) u1 wi hg (by norm_num) (by norm_num) hw
  have ep := hgPdf_eq g wi wo hg (by rw [hd]; exact l) (by rw [hd]; exact r)
  have hc0 : c = 0 := by
    have : hgCos g (1 / 2) = some (1 - 2 * (1 / 2)) := by simp only [hgCos, hE, if_true]
    rw [hc] at this; have := Option.some.inj this; linarith
  have key : hgMass g (V3.dot (-wi) wo) ≠ 1 / 2 := by
    rw [hd, hc0, hgMass_eq g 0 hg h0 (by norm_num) (by norm_num)]
    intro h
    obtain ⟨a, b⟩ := abs_lt.mp hg
    have hb : 0 < 1 + g ^ 2 - 2 * g * 0 := base_pos g 0 hg (by norm_num) (by norm_num)
    have hs := Real.sqrt_pos.mpr hb
    have hsq := Real.sq_sqrt hb.le
    set s := Real.sqrt (1 + g ^ 2 - 2 * g * 0)
    have h1g : 1 + g ≠ 0 := by linarith
    field_simp at h
    have h2 : (1 + g) * ((1 - g ^ 2) - s) = 0 := by linear_combination h
    have h3 : 1 - g ^ 2 = s := by
      rcases mul_eq_zero.mp h2 with h' | h'
      · exact absurd h' h1g
      · linarith
    rw [← h3] at hsq
    have : g ^ 2 * (g ^ 2 - 3) = 0 := by linear_combination hsq
    rcases mul_eq_zero.mp this with h' | h'
    · exact h0 (by simpa using h')
    · nlinarith
  exact ⟨1 / 2, wo, _, by norm_num, by norm_num, e, ep, key, by norm_num; norm_num at key; exact key⟩

/-- Non-vacuity. -/
example : |(1 / 2 : ℝ)| < 1 ∧ Eps ≤ |(1 / 2 : ℝ)| ∧ V3.dot (⟨0, 0, 1⟩ : V3 ℝ) ⟨0, 0, 1⟩ = 1 ∧ |(1 / 2000 : ℝ)| < Eps := by
  refine ⟨by norm_num [abs_lt], ?_, by simp [V3.dot], ?_⟩
  · rw [abs_of_pos (by norm_num)]; unfold Eps; norm_num
  · rw [abs_of_pos (by norm_num)]; unfold Eps; norm_num

end LM.Volume
