import Verif.Props.C80_Mixture
import Verif.Props.C80_Camera
import Verif.Props.C46_Light
import Verif.Spec.Area
/-
  C80: the directions and positions lights sample have the density that is reported.
-/
namespace LM.Solid
open MeasureTheory LM Set LM.MathF LM.Surface LM.Material LM.Light
open scoped ENNReal Real

theorem lintegral_sphere {f : V3 ℝ → ℝ≥0∞} (hf : Measurable f) : ∫⁻ q : ℝ × ℝ, f (sampleUniformSphere q.1 q.2) ∂uniform2 = ∫⁻ d, ENNReal.ofReal pdfSphere * f d ∂solidAngle := by
  have e := congrArg (fun μ : Measure (V3 ℝ) => ∫⁻ d, f d ∂μ) C80_sphere
  beta_reduce at e
  rw [lintegral_map hf measurable_sphere, lintegral_smul_measure, smul_eq_mul] at e
  rw [e, lintegral_const_mul' _ _ ENNReal.ofReal_ne_top]
  unfold pdfSphere
  rfl

/-- Directions uniform on the sphere. -/
theorem sphere_density {sample : ℝ × ℝ → Option (V3 ℝ)} (h : ∀ q, sample q = some (sampleUniformSphere q.1 q.2)) : HasDensityO uniform2 sample solidAngle (fun _ => some pdfSphere) := by
  refine hasDensityO_of_ae (fun q => sampleUniformSphere q.1 q.2) measurable_sphere measurable_const.aemeasurable (Filter.Eventually.of_forall h) fun A hA => ?_
  rw [lintegral_sphere (measurable_one.indicator hA), ← lintegral_indicator hA]
  refine lintegral_congr fun d => ?_
  by_cases hd : d ∈ A
  · rw [indicator_of_mem hd, indicator_of_mem hd, Pi.one_apply, mul_one]; rfl
  · rw [indicator_of_notMem hd, indicator_of_notMem hd, mul_zero]

/-- C80. Point lights emit in directions with the density they report, by `sample_direction` and (whatever the other numbers) by `sample_ray`. -/
theorem C80_point_light (Le position junk : V3 ℝ) (M : Aff ℝ) (g : Geom) (a b c : ℝ) : let L := point Le position junk
    HasDensityO uniform2 (fun q => resDir (L.sampleDirection ⟨a, b, c, q.1, q.2⟩ g)) solidAngle (fun d => L.pdfDirection g d) ∧
    HasDensityO uniform2 (fun q => resDir (L.sampleRay ⟨a, b, c, q.1, q.2⟩ M)) solidAngle (fun d => L.pdfRay g d M false) := by
  intro L
  refine ⟨sphere_density fun q => ?_, sphere_density fun q => ?_⟩
  · obtain ⟨C, e, _⟩ := ray_ok g (sampleUniformSphere q.1 q.2) Le _ pdfSphere_pos
    show resDir (ray g (sampleUniformSphere q.1 q.2) Le (some pdfSphere)) = _
    rw [e]; rfl
  · obtain ⟨C, e, _⟩ := ray_ok (makeDegenerated position junk) (sampleUniformSphere q.1 q.2) Le _ pdfSphere_pos
    show resDir (ray (makeDegenerated position junk) (sampleUniformSphere q.1 q.2) Le (some pdfSphere)) = _
    rw [e]; rfl

/-- C80. Area lights emit from a point in directions with the density they report, with respect to projected solid angle. -/
theorem C80_area_direction (sgn : V3 ℝ → Bool) (junk Ke : V3 ℝ) (ts : List Tri) (g : Geom) (hn : V3.dot g.n g.n = 1) (a b c : ℝ) : let L := area sgn junk Ke ts
    HasDensityO uniform2 (fun q => resDir (L.sampleDirection ⟨a, b, c, q.1, q.2⟩ g)) (projSolidAngle g.n) (fun d => L.pdfDirection g d) := by
  intro L
  have hF := frame_of (C32_basis g.n (sgn g.n) hn)
  have hWm : Measurable fun q : ℝ × ℝ => lin (orthonormalBasis g.n (sgn g.n)).1 (orthonormalBasis g.n (sgn g.n)).2 g.n (sampleCosineWeighted q.1 q.2) := (measurable_lin _ _ _).comp measurable_cosine
  have hms : MeasurableSet {d : V3 ℝ | 0 < V3.dot d g.n} := measurableSet_lt measurable_const (measurable_dotc g.n)
  refine hasDensityO_of_ae _ hWm ?_ (Filter.Eventually.of_forall fun q => ?_) fun A hA => ?_
  · refine Measurable.aemeasurable ?_
    have : (fun d => dens (L.pdfDirection g d)) = {d : V3 ℝ | 0 < V3.dot d g.n}.indicator (fun _ => ENNReal.ofReal pdfCosine) := by
      ext d
      show dens (some (if V3.dot d g.n ≤ 0 then 0 else pdfCosine)) = _
      by_cases h : 0 < V3.dot d g.n
      · rw [indicator_of_mem (by exact h), if_neg (not_le.mpr h)]; rfl
      · rw [indicator_of_notMem (by exact h), if_pos (not_lt.mp h)]; simp [dens]
    rw [this]
    exact measurable_const.indicator hms
  · obtain ⟨C, e, _⟩ := ray_ok g (cosineAround sgn g ⟨a, b, c, q.1, q.2⟩) (areaEval Ke g (cosineAround sgn g ⟨a, b, c, q.1, q.2⟩)) _ pdfCosine_pos
    show resDir (ray g (cosineAround sgn g ⟨a, b, c, q.1, q.2⟩) (areaEval Ke g (cosineAround sgn g ⟨a, b, c, q.1, q.2⟩)) (some pdfCosine)) = _
    rw [e]; rfl
  · rw [law_cosine hF (measurable_one.indicator hA), lintegral_projSA hA, ← lintegral_indicator hA]
    refine lintegral_congr fun d => ?_
    by_cases hd : d ∈ A
    · rw [indicator_of_mem hd, indicator_of_mem hd, Pi.one_apply, mul_one]
      show _ = ENNReal.ofReal |V3.dot d g.n| * ENNReal.ofReal (if V3.dot d g.n ≤ 0 then 0 else pdfCosine)
      by_cases h : V3.dot d g.n ≤ 0
      · rw [if_pos h, ENNReal.ofReal_zero, mul_zero, ENNReal.ofReal_eq_zero.mpr (div_nonpos_of_nonpos_of_nonneg h Real.pi_pos.le)]
      · rw [if_neg h, ← ENNReal.ofReal_mul (abs_nonneg _), abs_of_pos (not_le.mp h)]
        congr 1
        unfold pdfCosine
        ring
    · rw [indicator_of_notMem hd, indicator_of_notMem hd, mul_zero]

/-- Directions exactly in the plane of a surface have no solid angle. -/
theorem grazing_null {n : V3 ℝ} (hn : n ≠ 0) : ∀ᵐ d ∂solidAngle, V3.dot d n ≠ 0 := by
  obtain ⟨m, hm⟩ := normalize_of_ne hn
  obtain ⟨hm1, k, hk, hkm⟩ := normalize_unit hm
  have hF := frame_of (C32_basis m false hm1)
  have hms : MeasurableSet {d : V3 ℝ | V3.dot d m = 0} := measurableSet_eq_fun (measurable_dotc m) measurable_const
  have hz : MeasurableSet {d : V3 ℝ | d.z = 0} := measurableSet_eq_fun measurable_z measurable_const
  have h0 : solidAngle {d : V3 ℝ | V3.dot d m = 0} = 0 := by
    rw [← lintegral_indicator_one hms, ← lintegral_frame hF (measurable_one.indicator hms)]
    have : ∀ d, {d : V3 ℝ | V3.dot d m = 0}.indicator (1 : V3 ℝ → ℝ≥0∞) (lin (orthonormalBasis m false).1 (orthonormalBasis m false).2 m d) = {d : V3 ℝ | d.z = 0}.indicator 1 d := by
      intro d
      by_cases h : d.z = 0
      · rw [indicator_of_mem (show d ∈ {d : V3 ℝ | d.z = 0} from h), indicator_of_mem]
        · rfl
        · show V3.dot _ m = 0
          rw [lin_dot_n hF]; exact h
      · rw [indicator_of_notMem (show d ∉ {d : V3 ℝ | d.z = 0} from h), indicator_of_notMem]
        show ¬ V3.dot _ m = 0
        rw [lin_dot_n hF]; exact h
    simp only [this]
    rw [lintegral_spherical (measurable_one.indicator hz)]
    have hae : ∀ᵐ θ ∂(volume.restrict (Ioo 0 π)), θ ≠ π / 2 := by
      refine ae_restrict_of_ae ?_
      rw [ae_iff]
      simp
    rw [← lintegral_zero (μ := volume.restrict (Ioo 0 π))]
    refine lintegral_congr_ae ?_
    filter_upwards [hae, ae_restrict_mem measurableSet_Ioo] with θ h1 h2
    have hc : Real.cos θ ≠ 0 := by
      intro h
      apply h1
      refine Real.injOn_cos ⟨h2.1.le, h2.2.le⟩ ⟨by linarith [Real.pi_pos], by linarith [Real.pi_pos]⟩ ?_
      rw [h, Real.cos_pi_div_two]
    have : ∀ t : ℝ, ENNReal.ofReal (Real.sin θ) * {d : V3 ℝ | d.z = 0}.indicator (1 : V3 ℝ → ℝ≥0∞) ⟨Real.sin θ * Real.cos t, Real.sin θ * Real.sin t, Real.cos θ⟩ = 0 := by
      intro t
      rw [indicator_of_notMem (by exact hc), mul_zero]
    simp only [this, lintegral_zero]
  rw [ae_iff]
  refine measure_mono_null ?_ h0
  intro d hd
  have hd' : V3.dot d n = 0 := by simpa using hd
  rw [hkm, V3.dot_smul_right] at hd'
  exact (mul_eq_zero.mp hd').resolve_left hk.ne'

/-- The cosine in the solid angle at g. -/
noncomputable def cosOf (g : Geom) (d : V3 ℝ) : ℝ := if g.degenerated then 1 else |V3.dot d g.n|

theorem measurable_cosOf (g : Geom) : Measurable (cosOf g) := by
  unfold cosOf
  by_cases h : g.degenerated = true
  · simp only [h, if_true]; exact measurable_const
  · simp only [h]; exact continuous_abs.measurable.comp (measurable_dotc g.n)

theorem solidAngleAt_eq (g : Geom) : solidAngleAt g = solidAngle.withDensity fun d => ENNReal.ofReal (cosOf g d) := by
  unfold solidAngleAt cosOf
  by_cases h : g.degenerated = true
  · simp only [h, if_true, ENNReal.ofReal_one]; exact withDensity_one.symm
  · simp only [h]; rfl

theorem lintegral_solidAngleAt {g : Geom} {A : Set (V3 ℝ)} (hA : MeasurableSet A) (f : V3 ℝ → ℝ≥0∞) :
    ∫⁻ d in A, f d ∂solidAngleAt g = ∫⁻ d in A, ENNReal.ofReal (cosOf g d) * f d ∂solidAngle := by
  rw [solidAngleAt_eq, restrict_withDensity hA, lintegral_withDensity_eq_lintegral_mul_non_measurable (f := fun d => ENNReal.ofReal (cosOf g d)) _ (measurable_cosOf g).ennreal_ofReal]
  · rfl
  · exact Filter.Eventually.of_forall fun _ => ENNReal.ofReal_lt_top

theorem measurable_convert (p : ℝ) (g : Geom) : Measurable fun d : V3 ℝ => convertSAtoProjSA p g d := by
  unfold convertSAtoProjSA
  by_cases h : g.degenerated = true
  · simp only [h, if_true]; exact measurable_const
  · simp only [h, Bool.false_eq_true, if_false]
    have hm : Measurable fun d : V3 ℝ => |V3.dot g.n d| := by
      simp_rw [V3.dot_comm g.n]; exact continuous_abs.measurable.comp (measurable_dotc g.n)
    exact Measurable.ite (measurableSet_eq_fun hm measurable_const) measurable_const (measurable_const.div hm)

theorem measurable_neg3 : Measurable fun d : V3 ℝ => -d :=
  measurable_mk (f := fun d : V3 ℝ => -d) measurable_x.neg measurable_y.neg measurable_z.neg

theorem convert_mul {p : ℝ} (g : Geom) (d : V3 ℝ) (h : g.degenerated = true ∨ V3.dot d g.n ≠ 0) : cosOf g d * convertSAtoProjSA p g (-d) = p := by
  unfold cosOf convertSAtoProjSA
  by_cases hd : g.degenerated = true
  · simp [hd]
  · have h' := h.resolve_left hd
    have e : |V3.dot g.n (-d)| = |V3.dot d g.n| := by rw [V3.dot_neg_right, abs_neg, V3.dot_comm]
    simp only [hd, Bool.false_eq_true, if_false, e]
    rw [if_neg (abs_ne_zero.mpr h'), mul_div_cancel₀ _ (abs_ne_zero.mpr h')]

/-- C80. Constant environment lights send light to a point g from directions with the density they report, with respect to the solid angle at g. -/
theorem C80_envconst_direct (sgn : V3 ℝ → Bool) (junk Le c : V3 ℝ) (r : ℝ) (M : Aff ℝ) (g : Geom) (hg : g.degenerated = true ∨ g.n ≠ 0) (x y z : ℝ) : let L := envconst sgn junk Le c r
    HasDensityO uniform2 (fun q => resDir (L.sampleDirect ⟨x, y, z, q.1, q.2⟩ g M)) (solidAngleAt g) (fun wo => L.pdfDirect g (makeInfinite wo junk junk) M wo false) := by
  intro L
  have hgr : ∀ᵐ d ∂solidAngle, g.degenerated = true ∨ V3.dot d g.n ≠ 0 := by
    rcases hg with h | h
    · exact Filter.Eventually.of_forall fun _ => Or.inl h
    · exact (grazing_null h).mono fun _ h => Or.inr h
  have hq : ∀ᵐ q ∂uniform2, g.degenerated = true ∨ V3.dot (sampleUniformSphere q.1 q.2) g.n ≠ 0 := by
    have : ∀ᵐ d ∂(uniform2.map fun u : ℝ × ℝ => sampleUniformSphere u.1 u.2), g.degenerated = true ∨ V3.dot d g.n ≠ 0 := by
      rw [C80_sphere]
      exact Measure.ae_smul_measure hgr _
    exact ae_of_ae_map measurable_sphere.aemeasurable this
  have hpm : Measurable fun wo => dens (L.pdfDirect g (makeInfinite wo junk junk) M wo false) := by
    show Measurable fun wo => ENNReal.ofReal (convertSAtoProjSA pdfSphere g (-wo))
    exact ((measurable_convert pdfSphere g).comp measurable_neg3).ennreal_ofReal
  refine hasDensityO_of_ae (fun q => sampleUniformSphere q.1 q.2) measurable_sphere hpm.aemeasurable ?_ fun A hA => ?_
  · refine hq.mono fun q h => ?_
    have := convert_pos pdfSphere pdfSphere_pos g (-(sampleUniformSphere q.1 q.2)) (by rw [V3.dot_neg_right, V3.dot_comm]; simpa using h)
    obtain ⟨C, e, _⟩ := rayOrFail_pos (makeInfinite (sampleUniformSphere q.1 q.2) junk junk) (sampleUniformSphere q.1 q.2) Le _ this
    show resDir (rayOrFail (makeInfinite (sampleUniformSphere q.1 q.2) junk junk) (sampleUniformSphere q.1 q.2) Le (some (convertSAtoProjSA pdfSphere g (-(sampleUniformSphere q.1 q.2))))) = _
    rw [e]; rfl
  · rw [lintegral_sphere (measurable_one.indicator hA), lintegral_solidAngleAt hA, ← lintegral_indicator hA]
    refine lintegral_congr_ae (hgr.mono fun d h => ?_)
    beta_reduce
    by_cases hd : d ∈ A
    · rw [indicator_of_mem hd, indicator_of_mem hd, Pi.one_apply, mul_one]
      show _ = ENNReal.ofReal (cosOf g d) * ENNReal.ofReal (convertSAtoProjSA pdfSphere g (-d))
      rw [← ENNReal.ofReal_mul, convert_mul g d h]
      unfold cosOf; split <;> positivity
    · rw [indicator_of_notMem hd, indicator_of_notMem hd, mul_zero]

example (junk : V3 ℝ) (M : Aff ℝ) := C80_envconst_direct (fun _ => false) junk (V3.all 1) 0 1 M exGeom (Or.inr (by intro h; have := congrArg V3.z h; simp [exGeom] at this)) 0 0 0

end LM.Solid
