import Verif.Props.C80_Glossy
import Verif.Props.C59_Phase
/-
  C80: phase functions sample directions with the density they report.
-/
namespace LM.Solid
open MeasureTheory LM Set LM.MathF LM.Surface LM.Material LM.Volume
open scoped ENNReal Real

/-- C80. The isotropic phase function. -/
theorem C80_isotropic (wi : V3 ℝ) : PhaseDensity isotropic wi := by
  refine hasDensity_of univ (fun q => sampleUniformSphere q.1 q.2) MeasurableSet.univ measurable_sphere aemeasurable_const ?_ ?_
  · intro A
    ext q
    simp only [event, isotropic, mem_ofPred_eq, univ_inter, mem_preimage, DirRes.ok.injEq]
    constructor
    · rintro ⟨wo, C, ⟨rfl, _⟩, hA⟩; exact hA
    · intro hA; exact ⟨_, _, ⟨rfl, rfl⟩, hA⟩
  · intro A hA
    have hm1 : Measurable (A.indicator (1 : V3 ℝ → ℝ≥0∞)) := measurable_one.indicator hA
    have e := congrArg (fun μ : Measure (V3 ℝ) => ∫⁻ d, A.indicator 1 d ∂μ) C80_sphere
    beta_reduce at e
    rw [lintegral_map hm1 measurable_sphere, lintegral_smul_measure, smul_eq_mul, lintegral_indicator_one hA] at e
    rw [Measure.restrict_univ, e]
    simp only [isotropic, dens, lintegral_const, Measure.restrict_apply MeasurableSet.univ, univ_inter]

/-! ### Henyey-Greenstein -/

/-- The sampled cosine, without the special case of small g. -/
noncomputable def hgc (g u : ℝ) : ℝ := (1 + g * g - (1 - g * g) / (1 - g + 2 * g * u) * ((1 - g * g) / (1 - g + 2 * g * u))) / (2 * g)

theorem hgc_range (g u : ℝ) (hg : |g| < 1) (hg0 : g ≠ 0) (h0 : 0 ≤ u) (h1 : u ≤ 1) : -1 ≤ hgc g u ∧ hgc g u ≤ 1 ∧ hgMass g (hgc g u) = u := by
  obtain ⟨a, b⟩ := abs_lt.mp hg
  have hD : 0 < 1 - g + 2 * g * u := by
    rcases le_total 0 g with h' | h'
    · nlinarith [mul_nonneg h' h0]
    · nlinarith [mul_nonneg (neg_nonneg.mpr h') (sub_nonneg.mpr h1)]
  have hn : 0 < 1 - g ^ 2 := by nlinarith
  have h2g : 2 * g ≠ 0 := mul_ne_zero two_ne_zero hg0
  set q := (1 - g ^ 2) / (1 - g + 2 * g * u) with hq
  have hq' : (1 - g * g) / (1 - g + 2 * g * u) = q := by rw [hq, pow_two]
  have qpos : 0 < q := div_pos hn hD
  have hc : hgc g u = (1 + g * g - q * q) / (2 * g) := by rw [hgc, hq']
  have key : 1 + g ^ 2 - 2 * g * hgc g u = q ^ 2 := by rw [hc]; field_simp; ring
  have lo : 1 - |g| ≤ q := by
    rw [hq, le_div_iff₀ hD]
    rcases abs_cases g with ⟨e, hs⟩ | ⟨e, hs⟩ <;> rw [e] <;> nlinarith [mul_nonneg h0 (sub_nonneg.mpr h1), mul_nonneg (sub_nonneg.mpr h1) (by linarith : 0 ≤ 1 - g), mul_nonneg h0 (by linarith : 0 ≤ 1 + g)]
  have hi : q ≤ 1 + |g| := by
    rw [hq, div_le_iff₀ hD]
    rcases abs_cases g with ⟨e, hs⟩ | ⟨e, hs⟩ <;> rw [e] <;> nlinarith [mul_nonneg h0 (sub_nonneg.mpr h1), mul_nonneg (sub_nonneg.mpr h1) (by linarith : 0 ≤ 1 - g), mul_nonneg h0 (by linarith : 0 ≤ 1 + g)]
  have q1 : (1 - |g|) ^ 2 ≤ q ^ 2 := pow_le_pow_left₀ (by linarith) lo 2
  have q2 : q ^ 2 ≤ (1 + |g|) ^ 2 := pow_le_pow_left₀ qpos.le hi 2
  have l : -1 ≤ hgc g u := by
    rw [hc]
    rcases abs_cases g with ⟨e, hs⟩ | ⟨e, hs⟩ <;> rw [e] at q1 q2
    · have : 0 < g := lt_of_le_of_ne hs (Ne.symm hg0)
      rw [le_div_iff₀ (by positivity)]; nlinarith
    · rw [le_div_iff_of_neg (by linarith)]; nlinarith
  have r : hgc g u ≤ 1 := by
    rw [hc]
    rcases abs_cases g with ⟨e, hs⟩ | ⟨e, hs⟩ <;> rw [e] at q1 q2
    · have : 0 < g := lt_of_le_of_ne hs (Ne.symm hg0)
      rw [div_le_iff₀ (by positivity)]; nlinarith
    · rw [div_le_iff_of_neg (by linarith)]; nlinarith
  refine ⟨l, r, ?_⟩
  rw [hgMass_eq g _ hg hg0 l r, key, Real.sqrt_sq qpos.le, hq]
  have h1g : 1 + g ≠ 0 := by linarith
  have hn' := hn.ne'
  have hD' := hD.ne'
  field_simp
  ring

/-- The mass of {cosine ≤ c}, in closed form. -/
noncomputable def hgM (g c : ℝ) : ℝ := (1 - g ^ 2) / (2 * g) / Real.sqrt (1 + g ^ 2 - 2 * g * c) - (1 - g) / (2 * g)

theorem hgM_eq (g c : ℝ) (hg : |g| < 1) (hg0 : g ≠ 0) (h1 : -1 ≤ c) (h2 : c ≤ 1) : hgM g c = hgMass g c := by
  rw [hgMass_eq g c hg hg0 h1 h2, hgM]
  obtain ⟨a, b⟩ := abs_lt.mp hg
  have h1g : 1 + g ≠ 0 := by linarith
  have hs := (Real.sqrt_pos.mpr (base_pos g c hg h1 h2)).ne'
  field_simp
  ring

theorem hgM_deriv (g x : ℝ) (hg : |g| < 1) (hg0 : g ≠ 0) (h1 : -1 ≤ x) (h2 : x ≤ 1) : HasDerivAt (hgM g) (2 * π * hgDensity g x) x :=
  (hg_deriv g x hg0 (base_pos g x hg h1 h2)).sub_const _

theorem hgM_mono (g : ℝ) (hg : |g| < 1) (hg0 : g ≠ 0) : StrictMonoOn (hgM g) (Icc (-1) 1) := by
  refine strictMonoOn_of_deriv_pos (convex_Icc _ _) (fun x hx => (hgM_deriv g x hg hg0 hx.1 hx.2).continuousAt.continuousWithinAt) fun x hx => ?_
  rw [interior_Icc] at hx
  rw [(hgM_deriv g x hg hg0 hx.1.le hx.2.le).deriv]
  have := hgDensity_pos g x hg hx.1.le hx.2.le
  have := Real.pi_pos
  positivity

theorem hgM_ends (g : ℝ) (hg : |g| < 1) (hg0 : g ≠ 0) : hgM g (-1) = 0 ∧ hgM g 1 = 1 := by
  rw [hgM_eq g _ hg hg0 (by norm_num) (by norm_num), hgM_eq g _ hg hg0 (by norm_num) (by norm_num)]
  exact ⟨by simp [hgMass], (C59_normalised g hg).1⟩

theorem hgc_hgM (g c : ℝ) (hg : |g| < 1) (hg0 : g ≠ 0) (h1 : -1 ≤ c) (h2 : c ≤ 1) : hgc g (hgM g c) = c := by
  obtain ⟨e1, e2⟩ := hgM_ends g hg hg0
  have hm := hgM_mono g hg hg0
  have l0 : 0 ≤ hgM g c := by rw [← e1]; exact hm.monotoneOn ⟨le_rfl, by norm_num⟩ ⟨h1, h2⟩ h1
  have l1 : hgM g c ≤ 1 := by rw [← e2]; exact hm.monotoneOn ⟨h1, h2⟩ ⟨by norm_num, le_rfl⟩ h2
  obtain ⟨r1, r2, r3⟩ := hgc_range g (hgM g c) hg hg0 l0 l1
  rw [← hgM_eq g _ hg hg0 r1 r2] at r3
  exact hm.injOn ⟨r1, r2⟩ ⟨h1, h2⟩ r3

theorem cov_hg (g : ℝ) (hg : |g| < 1) (hg0 : g ≠ 0) (F : ℝ → ℝ≥0∞) : ∫⁻ u in Ioo 0 1, F u = ∫⁻ c in Ioo (-1) 1, ENNReal.ofReal (2 * π * hgDensity g c) * F (hgM g c) := by
  obtain ⟨e1, e2⟩ := hgM_ends g hg hg0
  have hm := hgM_mono g hg hg0
  have h := cov (a := -1) (b := 1) (c := 0) (d := 1) (hgM g) (fun c => 2 * π * hgDensity g c) ?_ ?_ ?_ F
  · rw [h]
    refine setLIntegral_congr_fun measurableSet_Ioo fun c hc => ?_
    rw [abs_of_nonneg (by have := hgDensity_pos g c hg hc.1.le hc.2.le; positivity)]
  · intro x hx; exact hgM_deriv g x hg hg0 hx.1.le hx.2.le
  · intro x hx y hy hxy; exact hm.injOn ⟨hx.1.le, hx.2.le⟩ ⟨hy.1.le, hy.2.le⟩ hxy
  · ext u; constructor
    · rintro ⟨c, hc, rfl⟩
      exact ⟨by rw [← e1]; exact hm ⟨le_rfl, by norm_num⟩ ⟨hc.1.le, hc.2.le⟩ hc.1, by rw [← e2]; exact hm ⟨hc.1.le, hc.2.le⟩ ⟨by norm_num, le_rfl⟩ hc.2⟩
    · intro hu
      obtain ⟨r1, r2, r3⟩ := hgc_range g u hg hg0 hu.1.le hu.2.le
      rw [← hgM_eq g _ hg hg0 r1 r2] at r3
      refine ⟨hgc g u, ⟨lt_of_le_of_ne r1 ?_, lt_of_le_of_ne r2 ?_⟩, r3⟩
      · intro hc; rw [← hc, e1] at r3; exact hu.1.ne r3
      · intro hc; rw [hc, e2] at r3; exact hu.2.ne r3.symm

theorem cov_cos (F : ℝ → ℝ≥0∞) : ∫⁻ c in Ioo (-1) 1, F c = ∫⁻ θ in Ioo 0 π, ENNReal.ofReal (Real.sin θ) * F (Real.cos θ) := by
  have h := cov (a := 0) (b := π) (c := -1) (d := 1) Real.cos (fun θ => -Real.sin θ) ?_ ?_ ?_ F
  · rw [h]
    refine setLIntegral_congr_fun measurableSet_Ioo fun θ hθ => ?_
    rw [abs_neg, abs_of_nonneg (Real.sin_nonneg_of_nonneg_of_le_pi hθ.1.le hθ.2.le)]
  · intro x _; exact Real.hasDerivAt_cos x
  · intro x hx y hy hxy; exact Real.injOn_cos ⟨hx.1.le, hx.2.le⟩ ⟨hy.1.le, hy.2.le⟩ hxy
  · ext c; constructor
    · rintro ⟨θ, hθ, rfl⟩
      constructor
      · have := Real.cos_lt_cos_of_nonneg_of_le_pi hθ.1.le le_rfl hθ.2
        rwa [Real.cos_pi] at this
      · have := Real.cos_lt_cos_of_nonneg_of_le_pi le_rfl hθ.2.le hθ.1
        rwa [Real.cos_zero] at this
    · intro hc
      refine ⟨Real.arccos c, ⟨Real.arccos_pos.mpr hc.2, lt_of_le_of_ne (Real.arccos_le_pi _) fun e => ?_⟩, Real.cos_arccos hc.1.le hc.2.le⟩
      have := Real.arccos_eq_pi.mp e
      linarith [hc.1]

/-- The direction of cosine c and azimuth 2π u. -/
noncomputable def coneDir (c u : ℝ) : V3 ℝ := ⟨safeSqrt (1 - c * c) * Real.cos (2 * π * u), safeSqrt (1 - c * c) * Real.sin (2 * π * u), c⟩

theorem measurable_cone {c : ℝ × ℝ → ℝ} (hc : Measurable c) : Measurable fun q : ℝ × ℝ => coneDir (c q) q.2 := by
  have hr : Measurable fun q => safeSqrt (1 - c q * c q) := measurable_safeSqrt.comp (measurable_const.sub (hc.mul hc))
  have ht : Measurable (fun u : ℝ × ℝ => 2 * Real.pi * u.2) := measurable_const.mul measurable_snd
  exact measurable_mk (hr.mul (Real.measurable_cos.comp ht)) (hr.mul (Real.measurable_sin.comp ht)) hc

theorem measurable_hgc (g : ℝ) : Measurable fun q : ℝ × ℝ => hgc g q.1 := by
  have h1 : Measurable fun q : ℝ × ℝ => (1 - g * g) / (1 - g + 2 * g * q.1) := measurable_const.div (measurable_const.add (measurable_const.mul measurable_fst))
  exact (measurable_const.sub (h1.mul h1)).div_const _

theorem measurable_hgDensity (g : ℝ) : Measurable (hgDensity g) := by
  unfold hgDensity
  exact measurable_const.div (measurable_const.mul ((measurable_const.sub (measurable_const.mul measurable_id)).pow_const _))

theorem law_hg (g : ℝ) (hg : |g| < 1) (hg0 : g ≠ 0) {f : V3 ℝ → ℝ≥0∞} (hf : Measurable f) :
    ∫⁻ q : ℝ × ℝ, f (coneDir (hgc g q.1) q.2) ∂uniform2 = ∫⁻ d, ENNReal.ofReal (hgDensity g d.z) * f d ∂solidAngle := by
  have hdm : Measurable fun d : V3 ℝ => ENNReal.ofReal (hgDensity g d.z) := ((measurable_hgDensity g).comp measurable_z).ennreal_ofReal
  rw [lintegral_uniform2 (f := fun q => f (coneDir (hgc g q.1) q.2)) (hf.comp (measurable_cone (measurable_hgc g))), lintegral_spherical (f := fun d => ENNReal.ofReal (hgDensity g d.z) * f d) (hdm.mul hf), cov_hg g hg hg0, cov_cos]
  refine setLIntegral_congr_fun measurableSet_Ioo fun θ hθ => ?_
  have hs := Real.sin_nonneg_of_nonneg_of_le_pi hθ.1.le hθ.2.le
  have hr : safeSqrt (1 - Real.cos θ * Real.cos θ) = Real.sin θ := by
    unfold safeSqrt
    have : 1 - Real.cos θ * Real.cos θ = Real.sin θ ^ 2 := by have := Real.sin_sq_add_cos_sq θ; linarith
    rw [this, max_eq_right (sq_nonneg _), Real.sqrt_sq hs]
  have hd := hgDensity_pos g (Real.cos θ) hg (Real.neg_one_le_cos θ) (Real.cos_le_one θ)
  simp only [hgc_hgM g _ hg hg0 (Real.neg_one_le_cos θ) (Real.cos_le_one θ), coneDir, hr]
  rw [azimuth hf, lintegral_const_mul' _ _ ENNReal.ofReal_ne_top, lintegral_const_mul' _ _ ENNReal.ofReal_ne_top]
  rw [← mul_assoc (ENNReal.ofReal (2 * π * hgDensity g (Real.cos θ))), ← ENNReal.ofReal_mul (by positivity)]
  congr 3
  field_simp

theorem hgCos_eq (g u : ℝ) (hg : |g| < 1) (hE : Eps ≤ |g|) (h0 : 0 ≤ u) (h1 : u ≤ 1) : hgCos g u = some (hgc g u) := by
  obtain ⟨a, b⟩ := abs_lt.mp hg
  have hg0 : g ≠ 0 := by
    rintro rfl; simp [Eps] at hE; norm_num at hE
  have hD : 0 < 1 - g + 2 * g * u := by
    rcases le_total 0 g with h' | h'
    · nlinarith [mul_nonneg h' h0]
    · nlinarith [mul_nonneg (neg_nonneg.mpr h') (sub_nonneg.mpr h1)]
  have h2g : 2 * g ≠ 0 := mul_ne_zero two_ne_zero hg0
  simp only [hgCos, not_lt.mpr hE, if_false, divF, hD.ne', h2g, Option.bind_eq_bind, Option.bind_some, hgc]

theorem uniform2_ae : ∀ᵐ q : ℝ × ℝ ∂uniform2, (0 ≤ q.1 ∧ q.1 < 1) ∧ (0 ≤ q.2 ∧ q.2 < 1) := by
  unfold uniform2
  filter_upwards [ae_restrict_mem (measurableSet_Ico.prod measurableSet_Ico)] with q hq
  exact ⟨hq.1, hq.2⟩

/-- As hasDensity_of, where the samples are only described for almost all random numbers. -/
theorem hasDensity_of_ae {U : Type} [MeasurableSpace U] {μ : Measure U} {sample : U → DirRes} {σ : Measure (V3 ℝ)} {p : V3 ℝ → Option ℝ} (W : U → V3 ℝ) (hW : Measurable W)
    (hp : AEMeasurable (fun d => dens (p d)) σ) (hev : ∀ᵐ u ∂μ, ∃ C, sample u = .ok (W u) C) (hlaw : ∀ A, MeasurableSet A → ∫⁻ u, A.indicator 1 (W u) ∂μ = ∫⁻ d in A, dens (p d) ∂σ) : HasDensity μ sample σ p := by
  refine ⟨hp, fun A hA => ?_⟩
  have hm : MeasurableSet (W ⁻¹' A) := hW hA
  have e : event sample A =ᵐ[μ] W ⁻¹' A := by
    refine hev.mono fun u hu => ?_
    obtain ⟨C, hC⟩ := hu
    refine propext ⟨?_, fun h => ⟨_, _, hC, h⟩⟩
    rintro ⟨wo, C', h, hA'⟩
    rw [hC] at h
    obtain ⟨rfl, rfl⟩ := DirRes.ok.inj h
    exact hA'
  refine ⟨hm.nullMeasurableSet.congr e.symm, ?_⟩
  rw [measure_congr e, ← hlaw A hA]
  have : ∀ u, A.indicator (1 : V3 ℝ → ℝ≥0∞) (W u) = (W ⁻¹' A).indicator 1 u := fun u => rfl
  simp_rw [this]
  rw [lintegral_indicator_one hm]

theorem hg_dens (g : ℝ) (wi : V3 ℝ) (hg : |g| < 1) (hw : V3.dot wi wi = 1) : ∀ᵐ d ∂solidAngle, dens (hgPdf g wi d) = ENNReal.ofReal (hgDensity g (V3.dot d (-wi))) := by
  refine solidAngle_unit.mono fun d hd => ?_
  have hw' : V3.dot (-wi) (-wi) = 1 := by rw [← hw]; simp [V3.dot]
  have hb : -1 ≤ V3.dot (-wi) d ∧ V3.dot (-wi) d ≤ 1 := by
    generalize -wi = w at hw'
    simp only [V3.dot] at *
    constructor
    · nlinarith [sq_nonneg (w.x + d.x), sq_nonneg (w.y + d.y), sq_nonneg (w.z + d.z)]
    · nlinarith [sq_nonneg (w.x - d.x), sq_nonneg (w.y - d.y), sq_nonneg (w.z - d.z)]
  rw [hgPdf_eq g wi d hg hb.1 hb.2, V3.dot_comm d (-wi)]
  rfl

/-- C80. The Henyey-Greenstein phase function, |g| ≥ Eps. Missing: 0 < |g| < Eps (C80_negation_hg_small). -/
theorem C80_hg_partial (sgn : V3 ℝ → Bool) (g : ℝ) (wi : V3 ℝ) (hg : |g| < 1) (hE : Eps ≤ |g|) (hw : V3.dot wi wi = 1) : PhaseDensity (Volume.hg sgn g) wi := by
  have hg0 : g ≠ 0 := by
    rintro rfl; simp [Eps] at hE; norm_num at hE
  have hw' : V3.dot (-wi) (-wi) = 1 := by rw [← hw]; simp [V3.dot]
  have ho := frame_of (C32_basis (-wi) (sgn (-wi)) hw')
  set u := (orthonormalBasis (-wi) (sgn (-wi))).1 with hu
  set v := (orthonormalBasis (-wi) (sgn (-wi))).2 with hv
  have hdm : Measurable fun d : V3 ℝ => ENNReal.ofReal (hgDensity g (V3.dot d (-wi))) := ((measurable_hgDensity g).comp (measurable_dotc _)).ennreal_ofReal
  have hWm : Measurable fun q : ℝ × ℝ => lin u v (-wi) (coneDir (hgc g q.1) q.2) := (measurable_lin _ _ _).comp (measurable_cone (measurable_hgc g))
  refine hasDensity_of_ae (fun q => lin u v (-wi) (coneDir (hgc g q.1) q.2)) hWm ?_ ?_ ?_
  · exact hdm.aemeasurable.congr ((hg_dens g wi hg hw).mono fun d hd => hd.symm)
  · refine uniform2_ae.mono fun q hq => ⟨V3.all 1, ?_⟩
    simp only [Volume.hg, hgCos_eq g q.1 hg hE hq.1.1 hq.1.2.le]
    rfl
  · intro A hA
    have hm1 : Measurable (A.indicator (1 : V3 ℝ → ℝ≥0∞)) := measurable_one.indicator hA
    have hml : Measurable fun d => A.indicator (1 : V3 ℝ → ℝ≥0∞) (lin u v (-wi) d) := hm1.comp (measurable_lin _ _ _)
    rw [law_hg g hg hg0 (f := fun d => A.indicator 1 (lin u v (-wi) d)) hml]
    have e1 : ∀ d, ENNReal.ofReal (hgDensity g d.z) * A.indicator 1 (lin u v (-wi) d) = (fun d => ENNReal.ofReal (hgDensity g (V3.dot d (-wi))) * A.indicator 1 d) (lin u v (-wi) d) := by
      intro d; simp only [lin_dot_n ho]
    simp_rw [e1]
    rw [lintegral_frame ho (f := fun d => ENNReal.ofReal (hgDensity g (V3.dot d (-wi))) * A.indicator 1 d) (hdm.mul hm1), ← lintegral_indicator hA]
    refine lintegral_congr_ae ((hg_dens g wi hg hw).mono fun d hd => ?_)
    by_cases hdA : d ∈ A
    · rw [indicator_of_mem hdA]
      simp only [indicator_of_mem hdA, Pi.one_apply, mul_one]
      exact hd.symm
    · rw [indicator_of_notMem hdA]
      simp only [indicator_of_notMem hdA, mul_zero]

/-- C80. The Henyey-Greenstein phase function, g = 0. -/
theorem C80_hg_zero (sgn : V3 ℝ → Bool) (wi : V3 ℝ) (hw : V3.dot wi wi = 1) : PhaseDensity (Volume.hg sgn 0) wi := by
  have hw' : V3.dot (-wi) (-wi) = 1 := by rw [← hw]; simp [V3.dot]
  have ho := frame_of (C32_basis (-wi) (sgn (-wi)) hw')
  set u := (orthonormalBasis (-wi) (sgn (-wi))).1 with hu
  set v := (orthonormalBasis (-wi) (sgn (-wi))).2 with hv
  have hd0 : ∀ d, (Volume.hg sgn 0).pdfDirection wi d = some (1 / (4 * π)) := by
    intro d; simp [Volume.hg, hgPdf, divF]; ring
  refine hasDensity_of_ae (fun q => lin u v (-wi) (sampleUniformSphere q.1 q.2)) ((measurable_lin _ _ _).comp measurable_sphere) ?_ ?_ ?_
  · simp only [hd0]; exact aemeasurable_const
  · refine Filter.Eventually.of_forall fun q => ⟨V3.all 1, ?_⟩
    have : hgCos 0 q.1 = some (1 - 2 * q.1) := by simp [hgCos, Eps]
    simp only [Volume.hg, this]
    rfl
  · intro A hA
    have hm1 : Measurable (A.indicator (1 : V3 ℝ → ℝ≥0∞)) := measurable_one.indicator hA
    have hml : Measurable fun d => A.indicator (1 : V3 ℝ → ℝ≥0∞) (lin u v (-wi) d) := hm1.comp (measurable_lin _ _ _)
    have e := congrArg (fun μ : Measure (V3 ℝ) => ∫⁻ d, A.indicator 1 (lin u v (-wi) d) ∂μ) C80_sphere
    beta_reduce at e
    rw [lintegral_map hml measurable_sphere, lintegral_smul_measure, smul_eq_mul, lintegral_frame ho hm1, lintegral_indicator_one hA] at e
    rw [e]
    simp only [hd0, dens, lintegral_const, Measure.restrict_apply MeasurableSet.univ, univ_inter]

theorem hgMass_half (g : ℝ) (hg : |g| < 1) (h0 : g ≠ 0) : hgMass g 0 ≠ 1 / 2 := by
  rw [hgMass_eq g 0 hg h0 (by norm_num) (by norm_num)]
  intro h
  obtain ⟨a, b⟩ := abs_lt.mp hg
  have hb : 0 < 1 + g ^ 2 - 2 * g * 0 := base_pos g 0 hg (by norm_num) (by norm_num)
  have hs := Real.sqrt_pos.mpr hb
  have hsq := Real.sq_sqrt hb.le
  set s := Real.sqrt (1 + g ^ 2 - 2 * g * 0)
  have h1g : 1 + g ≠ 0 := by linarith
  field_simp at h
  have h2 : (1 + g) * ((1 - g ^ 2) - s) = 0 := by linear_combination h
  have h3 : 1 - g ^ 2 = s := by
    rcases mul_eq_zero.mp h2 with h' | h'
    · exact absurd h' h1g
    · linarith
  rw [← h3] at hsq
  have : g ^ 2 * (g ^ 2 - 3) = 0 := by linear_combination hsq
  rcases mul_eq_zero.mp this with h' | h'
  · exact h0 (by simpa using h')
  · nlinarith

theorem uniform2_strip (a b : ℝ) (h0 : 0 ≤ a) (h1 : b ≤ 1) : uniform2 {q | a ≤ q.1 ∧ q.1 < b} = ENNReal.ofReal (b - a) ∧ uniform2 {q | a < q.1 ∧ q.1 < b} = ENNReal.ofReal (b - a) := by
  unfold uniform2
  constructor
  · have hm : MeasurableSet {q : ℝ × ℝ | a ≤ q.1 ∧ q.1 < b} := (measurableSet_le measurable_const measurable_fst).inter (measurableSet_lt measurable_fst measurable_const)
    rw [Measure.restrict_apply hm]
    have : {q : ℝ × ℝ | a ≤ q.1 ∧ q.1 < b} ∩ Ico 0 1 ×ˢ Ico 0 1 = Ico a b ×ˢ Ico 0 1 := by
      ext ⟨x, y⟩
      simp only [mem_inter_iff, mem_ofPred_eq, mem_prod, mem_Ico]
      constructor
      · rintro ⟨⟨p, q⟩, _, r⟩; exact ⟨⟨p, q⟩, r⟩
      · rintro ⟨⟨p, q⟩, r⟩; exact ⟨⟨p, q⟩, ⟨by linarith, by linarith⟩, r⟩
    rw [this, Measure.volume_eq_prod, Measure.prod_prod, Real.volume_Ico, Real.volume_Ico]; simp
  · have hm : MeasurableSet {q : ℝ × ℝ | a < q.1 ∧ q.1 < b} := (measurableSet_lt measurable_const measurable_fst).inter (measurableSet_lt measurable_fst measurable_const)
    rw [Measure.restrict_apply hm]
    have : {q : ℝ × ℝ | a < q.1 ∧ q.1 < b} ∩ Ico 0 1 ×ˢ Ico 0 1 = Ioo a b ×ˢ Ico 0 1 := by
      ext ⟨x, y⟩
      simp only [mem_inter_iff, mem_ofPred_eq, mem_prod, mem_Ico, mem_Ioo]
      constructor
      · rintro ⟨⟨p, q⟩, _, r⟩; exact ⟨⟨p, q⟩, r⟩
      · rintro ⟨⟨p, q⟩, r⟩; exact ⟨⟨p, q⟩, ⟨by linarith, by linarith⟩, r⟩
    rw [this, Measure.volume_eq_prod, Measure.prod_prod, Real.volume_Ioo, Real.volume_Ico]; simp

/-- C80, negation. For 0 < |g| < Eps directions are sampled uniformly while the density of the anisotropic distribution is reported. -/
theorem C80_negation_hg_small (sgn : V3 ℝ → Bool) (g : ℝ) (wi : V3 ℝ) (hg0 : g ≠ 0) (hE : |g| < Eps) (hw : V3.dot wi wi = 1) : ¬ PhaseDensity (Volume.hg sgn g) wi := by
  have hg : |g| < 1 := lt_trans hE (by unfold Eps; norm_num)
  have hw' : V3.dot (-wi) (-wi) = 1 := by rw [← hw]; simp [V3.dot]
  have ho := frame_of (C32_basis (-wi) (sgn (-wi)) hw')
  intro hP
  set A : Set (V3 ℝ) := {d | V3.dot d (-wi) < 0} with hAdef
  have hA : MeasurableSet A := measurableSet_lt (measurable_dotc _) measurable_const
  obtain ⟨_, h⟩ := hP.2 A hA
  -- backward directions are sampled with probability 1/2
  have hL : uniform2 (event (fun q : ℝ × ℝ => (Volume.hg sgn g).sampleDirection q.1 q.2 wi) A) = ENNReal.ofReal (1 / 2) := by
    have := (uniform2_strip (1 / 2) 1 (by norm_num) le_rfl).2
    rw [show (1 : ℝ) - 1 / 2 = 1 / 2 by norm_num] at this
    rw [← this]
    refine measure_congr (uniform2_ae.mono fun q hq => propext ?_)
    have hc : hgCos g q.1 = some (1 - 2 * q.1) := by simp [hgCos, hE]
    have hs : (Volume.hg sgn g).sampleDirection q.1 q.2 wi = .ok (lin (orthonormalBasis (-wi) (sgn (-wi))).1 (orthonormalBasis (-wi) (sgn (-wi))).2 (-wi) (coneDir (1 - 2 * q.1) q.2)) (V3.all 1) := by
      simp only [Volume.hg, hc]; rfl
    constructor
    · rintro ⟨wo, C, e, hm⟩
      beta_reduce at e
      rw [hs] at e
      obtain ⟨rfl, rfl⟩ := DirRes.ok.inj e
      rw [hAdef, mem_ofPred_eq, lin_dot_n ho] at hm
      simp only [coneDir] at hm
      exact ⟨by linarith, hq.1.2⟩
    · rintro ⟨h1, _⟩
      refine ⟨_, _, hs, ?_⟩
      rw [hAdef, mem_ofPred_eq, lin_dot_n ho]
      simp only [coneDir]
      linarith
  -- but the reported density gives them another probability
  have hR : ∫⁻ d in A, dens ((Volume.hg sgn g).pdfDirection wi d) ∂solidAngle = ENNReal.ofReal (hgMass g 0) := by
    obtain ⟨e1, e2⟩ := hgM_ends g hg hg0
    have hm := hgM_mono g hg hg0
    have hM0 : hgM g 0 = hgMass g 0 := hgM_eq g 0 hg hg0 (by norm_num) (by norm_num)
    have hM1 : hgM g 0 ≤ 1 := by rw [← e2]; exact hm.monotoneOn ⟨by norm_num, by norm_num⟩ ⟨by norm_num, le_rfl⟩ (by norm_num)
    have hm1 : Measurable (A.indicator (1 : V3 ℝ → ℝ≥0∞)) := measurable_one.indicator hA
    have hdm : Measurable fun d : V3 ℝ => ENNReal.ofReal (hgDensity g (V3.dot d (-wi))) := ((measurable_hgDensity g).comp (measurable_dotc _)).ennreal_ofReal
    have hB : MeasurableSet {d : V3 ℝ | d.z < 0} := measurableSet_lt measurable_z measurable_const
    have s1 : ∫⁻ d in A, dens ((Volume.hg sgn g).pdfDirection wi d) ∂solidAngle = ∫⁻ d, ENNReal.ofReal (hgDensity g (V3.dot d (-wi))) * A.indicator 1 d ∂solidAngle := by
      rw [← lintegral_indicator hA]
      refine lintegral_congr_ae ((hg_dens g wi hg hw).mono fun d hd => ?_)
      by_cases hdA : d ∈ A
      · simp only [indicator_of_mem hdA, Pi.one_apply, mul_one]; exact hd
      · simp only [indicator_of_notMem hdA, mul_zero]
    rw [s1, ← lintegral_frame ho (f := fun d => ENNReal.ofReal (hgDensity g (V3.dot d (-wi))) * A.indicator 1 d) (hdm.mul hm1)]
    have s2 : ∀ d, ENNReal.ofReal (hgDensity g (V3.dot (lin (orthonormalBasis (-wi) (sgn (-wi))).1 (orthonormalBasis (-wi) (sgn (-wi))).2 (-wi) d) (-wi))) *
        A.indicator 1 (lin (orthonormalBasis (-wi) (sgn (-wi))).1 (orthonormalBasis (-wi) (sgn (-wi))).2 (-wi) d) = ENNReal.ofReal (hgDensity g d.z) * {d : V3 ℝ | d.z < 0}.indicator 1 d := by
      intro d
      have : lin (orthonormalBasis (-wi) (sgn (-wi))).1 (orthonormalBasis (-wi) (sgn (-wi))).2 (-wi) d ∈ A ↔ d ∈ {d : V3 ℝ | d.z < 0} := by
        rw [hAdef, mem_ofPred_eq, lin_dot_n ho, mem_ofPred_eq]
      rw [lin_dot_n ho]
      by_cases hd : d ∈ {d : V3 ℝ | d.z < 0}
      · rw [indicator_of_mem hd, indicator_of_mem (this.mpr hd)]; rfl
      · rw [indicator_of_notMem hd, indicator_of_notMem (fun h => hd (this.mp h))]
    simp_rw [s2]
    rw [← law_hg g hg hg0 (measurable_one.indicator hB)]
    have s3 := (uniform2_strip 0 (hgM g 0) le_rfl hM1).1
    rw [sub_zero, hM0] at s3
    rw [← s3, ← hM0]
    have hS : MeasurableSet {q : ℝ × ℝ | 0 ≤ q.1 ∧ q.1 < hgM g 0} := (measurableSet_le measurable_const measurable_fst).inter (measurableSet_lt measurable_fst measurable_const)
    rw [← lintegral_indicator_one hS]
    refine lintegral_congr_ae (uniform2_ae.mono fun q hq => ?_)
    obtain ⟨r1, r2, r3⟩ := hgc_range g q.1 hg hg0 hq.1.1 hq.1.2.le
    rw [← hgM_eq g _ hg hg0 r1 r2] at r3
    have hiff : coneDir (hgc g q.1) q.2 ∈ {d : V3 ℝ | d.z < 0} ↔ q ∈ {q : ℝ × ℝ | 0 ≤ q.1 ∧ q.1 < hgM g 0} := by
      simp only [mem_ofPred_eq, coneDir]
      rw [← hm.lt_iff_lt ⟨r1, r2⟩ ⟨by norm_num, by norm_num⟩, r3]
      exact ⟨fun h => ⟨hq.1.1, h⟩, fun h => h.2⟩
    by_cases hd : q ∈ {q : ℝ × ℝ | 0 ≤ q.1 ∧ q.1 < hgM g 0}
    · simp only [indicator_of_mem hd, indicator_of_mem (hiff.mpr hd), Pi.one_apply]
    · simp only [indicator_of_notMem hd, indicator_of_notMem (fun h => hd (hiff.mp h))]
  rw [hL, hR] at h
  have hnn : 0 ≤ hgMass g 0 := by
    obtain ⟨e1, e2⟩ := hgM_ends g hg hg0
    rw [← hgM_eq g 0 hg hg0 (by norm_num) (by norm_num)]
    have := (hgM_mono g hg hg0).monotoneOn (a := -1) (b := 0) ⟨le_rfl, by norm_num⟩ ⟨by norm_num, by norm_num⟩ (by norm_num)
    rwa [e1] at this
  rw [ENNReal.ofReal_eq_ofReal_iff (by norm_num) hnn] at h
  exact hgMass_half g hg hg0 h.symm

/-- Non-vacuity. -/
example : PhaseDensity (Volume.hg (fun _ => false) (1 / 2)) ⟨0, 0, 1⟩ ∧ ¬ PhaseDensity (Volume.hg (fun _ => false) (1 / 2000)) ⟨0, 0, 1⟩ := by
  refine ⟨C80_hg_partial _ _ _ ?_ ?_ (by simp [V3.dot]), C80_negation_hg_small _ _ _ (by norm_num) ?_ (by simp [V3.dot])⟩
  · norm_num [abs_lt]
  · rw [abs_of_pos (by norm_num)]; unfold Eps; norm_num
  · rw [abs_of_pos (by norm_num)]; unfold Eps; norm_num

end LM.Solid
