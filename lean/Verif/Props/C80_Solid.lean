import Verif.Spec.SolidAngle
import Mathlib.Analysis.SpecialFunctions.PolarCoord
import Mathlib.Analysis.SpecialFunctions.Integrals.Basic
/-
  Integration over directions in spherical coordinates.
-/
namespace LM.Solid
open MeasureTheory LM Set
open scoped ENNReal Real

theorem measurable_toProd : Measurable toProd := comap_measurable _
theorem measurable_ofProd : Measurable ofProd := by
  rw [measurable_comap_iff]; exact measurable_id
theorem measurable_x : Measurable (fun v : V3 ℝ => v.x) := measurable_fst.comp measurable_toProd
theorem measurable_y : Measurable (fun v : V3 ℝ => v.y) := (measurable_fst.comp measurable_snd).comp measurable_toProd
theorem measurable_z : Measurable (fun v : V3 ℝ => v.z) := (measurable_snd.comp measurable_snd).comp measurable_toProd
theorem measurable_mk {α : Type} [MeasurableSpace α] {f : α → V3 ℝ} (hx : Measurable fun a => (f a).x) (hy : Measurable fun a => (f a).y) (hz : Measurable fun a => (f a).z) : Measurable f := by
  rw [measurable_comap_iff]; exact hx.prodMk (hy.prodMk hz)

theorem measurable_dot : Measurable (fun v : V3 ℝ => V3.dot v v) := by
  unfold V3.dot
  exact ((measurable_x.mul measurable_x).add (measurable_y.mul measurable_y)).add (measurable_z.mul measurable_z)

theorem measurable_dirOf : Measurable dirOf := by
  have h : Measurable (fun v : V3 ℝ => 1 / Real.sqrt (V3.dot v v)) := measurable_const.div measurable_dot.sqrt
  exact measurable_mk (h.mul measurable_x) (h.mul measurable_y) (h.mul measurable_z)

theorem measurableSet_ball : MeasurableSet {p : V3 ℝ | 0 < V3.dot p p ∧ V3.dot p p < 1} :=
  (measurableSet_lt measurable_const measurable_dot).inter (measurableSet_lt measurable_dot measurable_const)

theorem lintegral_vol {f : V3 ℝ → ℝ≥0∞} (hf : Measurable f) : ∫⁻ p, f p ∂vol = ∫⁻ z : ℝ, ∫⁻ q : ℝ × ℝ, f ⟨q.1, q.2, z⟩ := by
  unfold vol
  rw [lintegral_map hf measurable_ofProd]
  have h := (volume_preserving_prodAssoc (α₁ := ℝ) (β₁ := ℝ) (γ₁ := ℝ)).lintegral_comp (hf.comp measurable_ofProd)
  rw [show (∫⁻ a, f (ofProd a) : ℝ≥0∞) = ∫⁻ a, (f ∘ ofProd) a from rfl, ← h]
  have hm : Measurable fun a : (ℝ × ℝ) × ℝ => (f ∘ ofProd) (MeasurableEquiv.prodAssoc a) := (hf.comp measurable_ofProd).comp MeasurableEquiv.prodAssoc.measurable
  rw [show (volume : Measure ((ℝ × ℝ) × ℝ)) = volume.prod volume from rfl, lintegral_prod_symm _ hm.aemeasurable]
  rfl

theorem lintegral_solidAngle {f : V3 ℝ → ℝ≥0∞} (hf : Measurable f) :
    ∫⁻ d, f d ∂solidAngle = 3 * ∫⁻ p in {p : V3 ℝ | 0 < V3.dot p p ∧ V3.dot p p < 1}, f (dirOf p) ∂vol := by
  unfold solidAngle
  rw [lintegral_smul_measure, lintegral_map hf measurable_dirOf, smul_eq_mul]

theorem third : ∫⁻ R in Ioi (0 : ℝ), ENNReal.ofReal R * (ENNReal.ofReal R * (Iio (1 : ℝ)).indicator 1 R) = 1 / 3 := by
  have h1 : ∀ R : ℝ, ENNReal.ofReal R * (ENNReal.ofReal R * (Iio (1 : ℝ)).indicator 1 R) = (Iio (1 : ℝ)).indicator (fun R => ENNReal.ofReal R * ENNReal.ofReal R) R := by
    intro R
    by_cases h : R ∈ Iio (1 : ℝ)
    · rw [indicator_of_mem h, indicator_of_mem h]; simp
    · rw [indicator_of_notMem h, indicator_of_notMem h]; simp
  simp_rw [h1]
  rw [setLIntegral_indicator measurableSet_Iio]
  have e : (Iio (1 : ℝ) ∩ Ioi 0) = Ioo 0 1 := by ext x; simp [and_comm]
  rw [e]
  have h2 : ∫⁻ R in Ioo (0 : ℝ) 1, ENNReal.ofReal R * ENNReal.ofReal R = ∫⁻ R in Ioo (0 : ℝ) 1, ENNReal.ofReal (R ^ 2) := by
    refine setLIntegral_congr_fun measurableSet_Ioo ?_
    intro R hR
    dsimp only
    rw [← ENNReal.ofReal_mul hR.1.le, sq]
  rw [h2, ← ofReal_integral_eq_lintegral_ofReal]
  · rw [← integral_Ioc_eq_integral_Ioo, ← intervalIntegral.integral_of_le zero_le_one, integral_pow]
    norm_num
    rw [one_div, ENNReal.ofReal_inv_of_pos (by norm_num)]; norm_num
  · exact ((continuous_pow 2).integrableOn_Icc (a := 0) (b := 1)).mono_set Ioo_subset_Icc_self
  · exact Filter.Eventually.of_forall fun x => sq_nonneg x

/-- Polar coordinates as an iterated integral. -/
theorem lintegral_polar {F : ℝ × ℝ → ℝ≥0∞} (hF : Measurable F) :
    ∫⁻ q : ℝ × ℝ, F q = ∫⁻ ρ in Ioi (0 : ℝ), ∫⁻ t in Ioo (-π) π, ENNReal.ofReal ρ * F (ρ * Real.cos t, ρ * Real.sin t) := by
  rw [← lintegral_comp_polarCoord_symm]
  rw [polarCoord_target, show (volume : Measure (ℝ × ℝ)) = volume.prod volume from rfl, ← Measure.prod_restrict, lintegral_prod]
  · rfl
  · refine Measurable.aemeasurable ?_
    exact (measurable_fst.ennreal_ofReal).smul (hF.comp continuous_polarCoord_symm.measurable)

/-- Spherical coordinates. -/
theorem lintegral_spherical {f : V3 ℝ → ℝ≥0∞} (hf : Measurable f) :
    ∫⁻ d, f d ∂solidAngle = ∫⁻ θ in Ioo 0 π, ∫⁻ t in Ioo (-π) π, ENNReal.ofReal (Real.sin θ) * f ⟨Real.sin θ * Real.cos t, Real.sin θ * Real.sin t, Real.cos θ⟩ := by
  rw [lintegral_solidAngle hf, ← lintegral_indicator measurableSet_ball]
  set g : V3 ℝ → ℝ≥0∞ := {p : V3 ℝ | 0 < V3.dot p p ∧ V3.dot p p < 1}.indicator (fun p => f (dirOf p)) with hg
  have hgm : Measurable g := (hf.comp measurable_dirOf).indicator measurableSet_ball
  rw [lintegral_vol hgm]
  -- polar coordinates in the (x, y) plane
  have h1 : ∀ z : ℝ, ∫⁻ q : ℝ × ℝ, g ⟨q.1, q.2, z⟩ = ∫⁻ ρ in Ioi (0 : ℝ), ∫⁻ t in Ioo (-π) π, ENNReal.ofReal ρ * g ⟨ρ * Real.cos t, ρ * Real.sin t, z⟩ := by
    intro z
    exact lintegral_polar (F := fun q => g ⟨q.1, q.2, z⟩) (hgm.comp (measurable_mk measurable_fst measurable_snd measurable_const))
  simp_rw [h1]
  -- polar coordinates in the (z, ρ) plane
  set H : ℝ × ℝ → ℝ≥0∞ := fun q => {q : ℝ × ℝ | 0 < q.2}.indicator (fun q => ∫⁻ t in Ioo (-π) π, ENNReal.ofReal q.2 * g ⟨q.2 * Real.cos t, q.2 * Real.sin t, q.1⟩) q with hH
  have hHm : Measurable H := by
    refine Measurable.indicator ?_ (measurableSet_lt measurable_const measurable_snd)
    refine Measurable.lintegral_prod_right' (f := fun (a : (ℝ × ℝ) × ℝ) => ENNReal.ofReal a.1.2 * g ⟨a.1.2 * Real.cos a.2, a.1.2 * Real.sin a.2, a.1.1⟩) ?_
    refine (measurable_fst.snd.ennreal_ofReal).mul (hgm.comp (measurable_mk ?_ ?_ ?_))
    · exact measurable_fst.snd.mul (Real.measurable_cos.comp measurable_snd)
    · exact measurable_fst.snd.mul (Real.measurable_sin.comp measurable_snd)
    · exact measurable_fst.fst
  have h2 : ∫⁻ z : ℝ, ∫⁻ ρ in Ioi (0 : ℝ), ∫⁻ t in Ioo (-π) π, ENNReal.ofReal ρ * g ⟨ρ * Real.cos t, ρ * Real.sin t, z⟩ = ∫⁻ q : ℝ × ℝ, H q := by
    rw [show (volume : Measure (ℝ × ℝ)) = volume.prod volume from rfl, lintegral_prod _ hHm.aemeasurable]
    refine lintegral_congr fun z => ?_
    rw [← lintegral_indicator measurableSet_Ioi]
    refine lintegral_congr fun ρ => ?_
    simp only [hH, indicator, mem_Ioi, mem_ofPred_eq]
  rw [h2, lintegral_polar hHm]
  set K := ∫⁻ θ in Ioo 0 π, ∫⁻ t in Ioo (-π) π, ENNReal.ofReal (Real.sin θ) * f ⟨Real.sin θ * Real.cos t, Real.sin θ * Real.sin t, Real.cos θ⟩ with hK
  have h3 : ∀ R ∈ Ioi (0 : ℝ), ∫⁻ θ in Ioo (-π) π, ENNReal.ofReal R * H (R * Real.cos θ, R * Real.sin θ) = ENNReal.ofReal R * (ENNReal.ofReal R * (Iio (1 : ℝ)).indicator 1 R) * K := by
    intro R hR
    rw [mem_Ioi] at hR
    have hin : ∀ θ ∈ Ioo (-π) π, ENNReal.ofReal R * H (R * Real.cos θ, R * Real.sin θ) =
        (Ioo 0 π).indicator (fun θ => ENNReal.ofReal R * (ENNReal.ofReal R * (Iio (1 : ℝ)).indicator 1 R) * ∫⁻ t in Ioo (-π) π, ENNReal.ofReal (Real.sin θ) * f ⟨Real.sin θ * Real.cos t, Real.sin θ * Real.sin t, Real.cos θ⟩) θ := by
      intro θ hθ
      by_cases h0 : θ ∈ Ioo 0 π
      · have hs : 0 < Real.sin θ := Real.sin_pos_of_pos_of_lt_pi h0.1 h0.2
        rw [indicator_of_mem h0]
        have : H (R * Real.cos θ, R * Real.sin θ) = ∫⁻ t in Ioo (-π) π, ENNReal.ofReal (R * Real.sin θ) * g ⟨R * Real.sin θ * Real.cos t, R * Real.sin θ * Real.sin t, R * Real.cos θ⟩ := by
          simp only [hH]
          rw [indicator_of_mem (show (R * Real.cos θ, R * Real.sin θ) ∈ {q : ℝ × ℝ | 0 < q.2} from mul_pos hR hs)]
        rw [this, mul_assoc]
        congr 1
        have hconst : ENNReal.ofReal R * (Iio (1 : ℝ)).indicator 1 R ≠ ⊤ := by
          refine ENNReal.mul_ne_top ENNReal.ofReal_ne_top ?_
          by_cases h : R ∈ Iio (1 : ℝ)
          · rw [indicator_of_mem h]; simp
          · rw [indicator_of_notMem h]; simp
        rw [← lintegral_const_mul' _ _ hconst]
        refine lintegral_congr fun t => ?_
        have hdot : V3.dot (⟨R * Real.sin θ * Real.cos t, R * Real.sin θ * Real.sin t, R * Real.cos θ⟩ : V3 ℝ) ⟨R * Real.sin θ * Real.cos t, R * Real.sin θ * Real.sin t, R * Real.cos θ⟩ = R ^ 2 := by
          simp only [V3.dot]
          have e1 := Real.sin_sq_add_cos_sq θ
          have e2 := Real.sin_sq_add_cos_sq t
          linear_combination R ^ 2 * Real.sin θ ^ 2 * e2 + R ^ 2 * e1
        have hdir : dirOf (⟨R * Real.sin θ * Real.cos t, R * Real.sin θ * Real.sin t, R * Real.cos θ⟩ : V3 ℝ) = ⟨Real.sin θ * Real.cos t, Real.sin θ * Real.sin t, Real.cos θ⟩ := by
          unfold dirOf
          rw [hdot, Real.sqrt_sq hR.le]
          ext <;> simp <;> field_simp
        rw [ENNReal.ofReal_mul hR.le]
        by_cases h : R < 1
        · have hm : (⟨R * Real.sin θ * Real.cos t, R * Real.sin θ * Real.sin t, R * Real.cos θ⟩ : V3 ℝ) ∈ {p : V3 ℝ | 0 < V3.dot p p ∧ V3.dot p p < 1} := by
            rw [mem_ofPred_eq, hdot]; exact ⟨by positivity, by nlinarith⟩
          rw [hg, indicator_of_mem hm, hdir, indicator_of_mem (show R ∈ Iio (1 : ℝ) from h)]
          simp only [Pi.one_apply, mul_one]
          ring
        · have hm : (⟨R * Real.sin θ * Real.cos t, R * Real.sin θ * Real.sin t, R * Real.cos θ⟩ : V3 ℝ) ∉ {p : V3 ℝ | 0 < V3.dot p p ∧ V3.dot p p < 1} := by
            rw [mem_ofPred_eq, hdot]; intro hc; nlinarith [hc.2]
          rw [hg, indicator_of_notMem hm, indicator_of_notMem (show R ∉ Iio (1 : ℝ) from h)]
          simp
      · rw [indicator_of_notMem h0]
        have hs : ¬ 0 < Real.sin θ := by
          have : θ ≤ 0 := by by_contra hc; exact h0 ⟨not_le.mp hc, hθ.2⟩
          exact not_lt.mpr (Real.sin_nonpos_of_nonpos_of_neg_pi_le this hθ.1.le)
        have : H (R * Real.cos θ, R * Real.sin θ) = 0 := by
          simp only [hH]
          rw [indicator_of_notMem]
          intro hc
          exact hs (pos_of_mul_pos_right hc hR.le)
        rw [this, mul_zero]
    rw [setLIntegral_congr_fun measurableSet_Ioo hin, setLIntegral_indicator measurableSet_Ioo]
    have e : Ioo 0 π ∩ Ioo (-π) π = Ioo 0 π := by
      refine inter_eq_left.mpr fun x hx => ⟨by linarith [hx.1, Real.pi_pos], hx.2⟩
    rw [e, hK, ← lintegral_const_mul']
    refine ENNReal.mul_ne_top ENNReal.ofReal_ne_top (ENNReal.mul_ne_top ENNReal.ofReal_ne_top ?_)
    by_cases h : R ∈ Iio (1 : ℝ)
    · rw [indicator_of_mem h]; simp
    · rw [indicator_of_notMem h]; simp
  rw [setLIntegral_congr_fun measurableSet_Ioi h3, lintegral_mul_const, third]
  · rw [← mul_assoc, one_div, ENNReal.mul_inv_cancel (by norm_num) (by norm_num), one_mul]
  · exact (measurable_id.ennreal_ofReal).mul ((measurable_id.ennreal_ofReal).mul (measurable_one.indicator measurableSet_Iio))

end LM.Solid
