import Verif.Props.C80_Material
import Verif.Props.C47_Camera
/-
  C80: primary rays, and the directions lights emit, have the density that is reported.
-/
namespace LM.Solid
open MeasureTheory LM Set LM.MathF LM.Surface LM.Material LM.Light
open scoped ENNReal Real

theorem hasDensityO_of_ae {U α : Type} [MeasurableSpace U] [MeasurableSpace α] {μ : Measure U} {sample : U → Option α} {σ : Measure α} {p : α → Option ℝ} (W : U → α) (hW : Measurable W)
    (hp : AEMeasurable (fun d => dens (p d)) σ) (hev : ∀ᵐ u ∂μ, sample u = some (W u)) (hlaw : ∀ A, MeasurableSet A → ∫⁻ u, A.indicator 1 (W u) ∂μ = ∫⁻ d in A, dens (p d) ∂σ) : HasDensityO μ sample σ p := by
  refine ⟨hp, fun A hA => ?_⟩
  have hm : MeasurableSet (W ⁻¹' A) := hW hA
  have e : ({u | ∃ a, sample u = some a ∧ a ∈ A} : Set U) =ᵐ[μ] W ⁻¹' A := by
    refine hev.mono fun u hu => ?_
    refine propext ⟨?_, fun h => ⟨_, hu, h⟩⟩
    rintro ⟨a, h, hA'⟩
    rw [hu] at h
    cases h
    exact hA'
  refine ⟨hm.nullMeasurableSet.congr e.symm, ?_⟩
  rw [measure_congr e, ← hlaw A hA]
  have : ∀ u, A.indicator (1 : α → ℝ≥0∞) (W u) = (W ⁻¹' A).indicator 1 u := fun u => rfl
  simp_rw [this]
  rw [lintegral_indicator_one hm]

/-- x' = 2x - 1 -/
theorem cov_screen (F : ℝ → ℝ≥0∞) : ∫⁻ x in Ioo (0 : ℝ) 1, F (2 * x - 1) = ENNReal.ofReal (1 / 2) * ∫⁻ x in Ioo (-1 : ℝ) 1, F x := by
  have h := cov (a := 0) (b := 1) (c := -1) (d := 1) (fun x => 2 * x - 1) (fun _ => 2) ?_ ?_ ?_ F
  · rw [h, lintegral_const_mul' _ _ ENNReal.ofReal_ne_top, ← mul_assoc, ← ENNReal.ofReal_mul (by norm_num), abs_of_pos (by norm_num : (0 : ℝ) < 2)]
    norm_num
  · intro x _
    have := ((hasDerivAt_id' x).const_mul 2).sub_const 1
    simpa using this
  · intro x _ y _ hxy; simp only at hxy; linarith
  · ext y; constructor
    · rintro ⟨x, hx, rfl⟩; constructor <;> simp only <;> linarith [hx.1, hx.2]
    · intro hy; exact ⟨(y + 1) / 2, ⟨by linarith [hy.1], by linarith [hy.2]⟩, by simp only; ring⟩

theorem screen_law {F : ℝ × ℝ → ℝ≥0∞} (hF : Measurable F) : ∫⁻ q : ℝ × ℝ, F (2 * q.1 - 1, 2 * q.2 - 1) ∂uniform2 = ∫⁻ q in Icc (-1) 1 ×ˢ Icc (-1) 1, ENNReal.ofReal (1 / 4) * F q := by
  have hm : Measurable fun q : ℝ × ℝ => F (2 * q.1 - 1, 2 * q.2 - 1) := hF.comp (((measurable_fst.const_mul 2).sub_const 1).prodMk ((measurable_snd.const_mul 2).sub_const 1))
  rw [lintegral_uniform2 hm, show (volume : Measure (ℝ × ℝ)) = volume.prod volume from rfl, ← Measure.prod_restrict, lintegral_prod _ (hF.const_mul _).aemeasurable]
  simp only
  rw [cov_screen (fun x => ∫⁻ y in Ioo (0 : ℝ) 1, F (x, 2 * y - 1))]
  have h1 : ∀ x, ∫⁻ y in Ioo (0 : ℝ) 1, F (x, 2 * y - 1) = ENNReal.ofReal (1 / 2) * ∫⁻ y in Ioo (-1 : ℝ) 1, F (x, y) := fun x => cov_screen (fun y => F (x, y))
  simp_rw [h1]
  rw [restrict_Ioo_eq_restrict_Icc, lintegral_const_mul' _ _ ENNReal.ofReal_ne_top, ← mul_assoc, ← ENNReal.ofReal_mul (by norm_num), ← lintegral_const_mul' _ _ ENNReal.ofReal_ne_top]
  refine lintegral_congr fun x => ?_
  rw [lintegral_const_mul' _ _ ENNReal.ofReal_ne_top]
  norm_num

/-- Camera coordinates of the point of the screen. -/
noncomputable def screenPt (c : Camera) (q : ℝ × ℝ) : V3 ℝ := ⟨c.aspect * c.tf * q.1, c.tf * q.2, -1⟩

theorem toEye_lin {c : Camera} (h : Frame c.u c.v c.w) (d : V3 ℝ) : toEye c (lin c.u c.v c.w d) = d := by
  have e1 : V3.dot c.u (lin c.u c.v c.w d) = d.x * V3.dot c.u c.u + d.y * V3.dot c.u c.v + d.z * V3.dot c.u c.w := by
    simp only [lin, V3.dot, V3.add_x, V3.add_y, V3.add_z, V3.smul_x, V3.smul_y, V3.smul_z]; ring
  have e2 : V3.dot c.v (lin c.u c.v c.w d) = d.x * V3.dot c.u c.v + d.y * V3.dot c.v c.v + d.z * V3.dot c.v c.w := by
    simp only [lin, V3.dot, V3.add_x, V3.add_y, V3.add_z, V3.smul_x, V3.smul_y, V3.smul_z]; ring
  have e3 : V3.dot c.w (lin c.u c.v c.w d) = d.x * V3.dot c.u c.w + d.y * V3.dot c.v c.w + d.z * V3.dot c.w c.w := by
    simp only [lin, V3.dot, V3.add_x, V3.add_y, V3.add_z, V3.smul_x, V3.smul_y, V3.smul_z]; ring
  simp only [toEye, e1, e2, e3, h.uu, h.vv, h.nn, h.uv, h.un, h.vn]
  ext <;> simp

/-- The directions, in camera coordinates, of points on the screen. -/
def frustum (c : Camera) : Set (V3 ℝ) := {d | d.z < 0 ∧ -(1 : ℝ) ≤ -d.x / d.z / c.tf / c.aspect ∧ -d.x / d.z / c.tf / c.aspect ≤ 1 ∧ -1 ≤ -d.y / d.z / c.tf ∧ -d.y / d.z / c.tf ≤ 1}

theorem measurable_frustum (c : Camera) : MeasurableSet (frustum c) := by
  have hx : Measurable fun d : V3 ℝ => -d.x / d.z / c.tf / c.aspect := ((measurable_x.neg.div measurable_z).div_const _).div_const _
  have hy : Measurable fun d : V3 ℝ => -d.y / d.z / c.tf := (measurable_y.neg.div measurable_z).div_const _
  exact (measurableSet_lt measurable_z measurable_const).inter ((measurableSet_le measurable_const hx).inter ((measurableSet_le hx measurable_const).inter ((measurableSet_le measurable_const hy).inter (measurableSet_le hy measurable_const))))

theorem camPdf_eye {c : Camera} (ht : 0 < c.tf) (ha : 0 < c.aspect) (wo : V3 ℝ) :
    dens (camPdfDirection c wo) = (frustum c).indicator (fun d => ENNReal.ofReal ((1 / -d.z) ^ 3 / (c.tf ^ 2 * c.aspect * 4))) (toEye c wo) := by
  unfold camPdfDirection rasterPosition
  simp only
  generalize hd : toEye c wo = d
  by_cases hz : d.z ≥ 0
  · rw [indicator_of_notMem (fun hm => absurd hm.1 (not_lt.mpr hz))]
    simp [hz, dens]
  · rw [if_neg hz]
    have hz' : d.z < 0 := not_le.mp hz
    by_cases hin : d ∈ frustum c
    · rw [indicator_of_mem hin, if_neg]
      · simp only [camJ, hd, divF]
        have h1 : -d.z ≠ 0 := by linarith
        have h2 : c.tf * c.tf * c.aspect * 4 ≠ 0 := by positivity
        simp only [h1, h2, if_false, Option.bind_eq_bind, Option.bind_some, dens]
        congr 2 <;> ring
      · obtain ⟨_, i1, i2, i3, i4⟩ := hin
        push Not
        refine ⟨?_, ?_, ?_, ?_⟩ <;> linarith
    · rw [indicator_of_notMem hin, if_pos]
      · simp [dens]
      · by_contra hc
        push Not at hc
        obtain ⟨i1, i2, i3, i4⟩ := hc
        exact hin ⟨hz', by linarith, by linarith, by linarith, by linarith⟩

/-- C80. Primary rays: the probability of a set of directions is the integral of pdf_ray (pdf_direction) over it, with respect to solid angle. -/
theorem C80_camera (c : Camera) (junk : V3 ℝ) (h : c.Proper) (up0 up1 upc : ℝ) :
    HasDensityO uniform2 (fun q => resDir (camSampleRay c junk ⟨up0, up1, upc, q.1, q.2⟩)) solidAngle (camPdfDirection c) := by
  obtain ⟨hon, ht, ha⟩ := h
  have hF := frame_of hon
  have hsm : Measurable (screenPt c) := measurable_mk (measurable_fst.const_mul _) (measurable_snd.const_mul _) measurable_const
  have hq : Measurable fun q : ℝ × ℝ => (2 * q.1 - 1, 2 * q.2 - 1) := ((measurable_fst.const_mul 2).sub_const 1).prodMk ((measurable_snd.const_mul 2).sub_const 1)
  have hGm : Measurable fun q => lin c.u c.v c.w (dirOf (screenPt c q)) := (measurable_lin _ _ _).comp (measurable_dirOf.comp hsm)
  set p : V3 ℝ → ℝ≥0∞ := (frustum c).indicator (fun d => ENNReal.ofReal ((1 / -d.z) ^ 3 / (c.tf ^ 2 * c.aspect * 4))) with hp
  have hpm : Measurable p := ((((measurable_const.div measurable_z.neg).pow_const 3).div_const _).ennreal_ofReal).indicator (measurable_frustum c)
  have hpd : ∀ d, dens (camPdfDirection c d) = p (toEye c d) := camPdf_eye ht ha
  have hem : Measurable (toEye c) := by
    refine measurable_mk ?_ ?_ ?_ <;> simp only [toEye]
    · simp_rw [V3.dot_comm c.u]; exact measurable_dotc _
    · simp_rw [V3.dot_comm c.v]; exact measurable_dotc _
    · simp_rw [V3.dot_comm c.w]; exact measurable_dotc _
  refine hasDensityO_of_ae (fun q => lin c.u c.v c.w (dirOf (screenPt c (2 * q.1 - 1, 2 * q.2 - 1)))) (hGm.comp hq) ?_ ?_ ?_
  · simp_rw [hpd]; exact (hpm.comp hem).aemeasurable
  · refine Filter.Eventually.of_forall fun q => ?_
    have hne : V3.dot (⟨c.aspect * c.tf * (2 * q.1 - 1), c.tf * (2 * q.2 - 1), -1⟩ : V3 ℝ) ⟨c.aspect * c.tf * (2 * q.1 - 1), c.tf * (2 * q.2 - 1), -1⟩ ≠ 0 := by
      simp only [V3.dot]; nlinarith [mul_self_nonneg (c.aspect * c.tf * (2 * q.1 - 1)), mul_self_nonneg (c.tf * (2 * q.2 - 1))]
    simp only [camSampleRay, primaryRay, Material.normalize, if_neg hne, Option.map_some, resDir]
    rfl
  · intro A hA
    have hm1 : Measurable (A.indicator (1 : V3 ℝ → ℝ≥0∞)) := measurable_one.indicator hA
    set G : V3 ℝ → ℝ≥0∞ := fun d => p d * A.indicator 1 (lin c.u c.v c.w d) with hG
    have hGmeas : Measurable G := hpm.mul (hm1.comp (measurable_lin _ _ _))
    -- the reported density, in camera coordinates
    have e1 : ∫⁻ d in A, dens (camPdfDirection c d) ∂solidAngle = ∫⁻ d, G d ∂solidAngle := by
      rw [← lintegral_indicator hA]
      have : ∀ d, A.indicator (fun d => dens (camPdfDirection c d)) d = (fun d => p (toEye c d) * A.indicator 1 d) d := by
        intro d
        by_cases hd : d ∈ A
        · simp only [indicator_of_mem hd, Pi.one_apply, mul_one, hpd]
        · simp only [indicator_of_notMem hd, mul_zero]
      simp_rw [this]
      rw [← lintegral_frame hF (f := fun d => p (toEye c d) * A.indicator 1 d) ((hpm.comp hem).mul hm1)]
      refine lintegral_congr fun d => ?_
      simp only [hG, toEye_lin hF]
    have hdet : det3 ⟨c.aspect * c.tf, 0, 0⟩ ⟨0, c.tf, 0⟩ ⟨0, 0, -1⟩ = -(c.aspect * c.tf ^ 2) := by
      simp only [det3, V3.cross, V3.dot]; ring
    have hk : 0 < c.aspect * c.tf ^ 2 := by positivity
    have hset : {d : V3 ℝ | 0 < V3.dot (V3.cross ⟨c.aspect * c.tf, 0, 0⟩ ⟨0, c.tf, 0⟩) d * det3 ⟨c.aspect * c.tf, 0, 0⟩ ⟨0, c.tf, 0⟩ ⟨0, 0, -1⟩} = {d | d.z < 0} := by
      ext d
      have e : V3.dot (V3.cross ⟨c.aspect * c.tf, 0, 0⟩ ⟨0, c.tf, 0⟩) d = c.aspect * c.tf ^ 2 * d.z := by
        simp only [V3.cross, V3.dot]; ring
      rw [mem_ofPred_eq, mem_ofPred_eq, e, hdet]
      constructor
      · intro hh
        by_contra hc
        nlinarith [mul_nonneg (mul_pos hk hk).le (not_lt.mp hc)]
      · intro hh
        nlinarith [mul_pos (mul_pos hk hk) (neg_pos.mpr hh)]
    have hzm : MeasurableSet {d : V3 ℝ | d.z < 0} := measurableSet_lt measurable_z measurable_const
    have e2 : ∫⁻ d, G d ∂solidAngle = ∫⁻ d in {d : V3 ℝ | d.z < 0}, G d ∂solidAngle := by
      rw [← lintegral_indicator hzm]
      refine lintegral_congr fun d => ?_
      by_cases hd : d ∈ {d : V3 ℝ | d.z < 0}
      · rw [indicator_of_mem hd]
      · rw [indicator_of_notMem hd]
        have : d ∉ frustum c := fun hm => hd hm.1
        simp only [hG, hp, indicator_of_notMem this, zero_mul]
    have hne : det3 ⟨c.aspect * c.tf, 0, 0⟩ ⟨0, c.tf, 0⟩ ⟨0, 0, -1⟩ ≠ 0 := by rw [hdet]; linarith
    rw [e1, e2, ← hset, lintegral_plane hne hGmeas, screen_law (F := fun q => A.indicator 1 (lin c.u c.v c.w (dirOf (screenPt c q)))) (hm1.comp hGm),
      ← lintegral_indicator (measurableSet_Icc.prod measurableSet_Icc)]
    refine lintegral_congr fun q => ?_
    have hP : planePt ⟨c.aspect * c.tf, 0, 0⟩ ⟨0, c.tf, 0⟩ ⟨0, 0, -1⟩ q = screenPt c q := by
      simp only [planePt, screenPt]
      ext <;> simp <;> ring
    rw [hP, hdet, abs_neg, abs_of_pos hk]
    set S := Real.sqrt (V3.dot (screenPt c q) (screenPt c q)) with hS
    have hSpos : 0 < S := by
      refine Real.sqrt_pos.mpr ?_
      simp only [screenPt, V3.dot]
      nlinarith [mul_self_nonneg (c.aspect * c.tf * q.1), mul_self_nonneg (c.tf * q.2)]
    have hd : dirOf (screenPt c q) = ⟨1 / S * (c.aspect * c.tf * q.1), 1 / S * (c.tf * q.2), 1 / S * -1⟩ := by
      simp only [dirOf, ← hS]
      ext <;> simp [screenPt]
    have hx : -(dirOf (screenPt c q)).x / (dirOf (screenPt c q)).z / c.tf / c.aspect = q.1 := by
      rw [hd]; simp only; field_simp
    have hy : -(dirOf (screenPt c q)).y / (dirOf (screenPt c q)).z / c.tf = q.2 := by
      rw [hd]; simp only; field_simp
    have hz : (dirOf (screenPt c q)).z = -(1 / S) := by rw [hd]; ring
    by_cases hqin : q ∈ Icc (-1 : ℝ) 1 ×ˢ Icc (-1 : ℝ) 1
    · have hfr : dirOf (screenPt c q) ∈ frustum c := by
        refine ⟨by rw [hz]; have := one_div_pos.mpr hSpos; linarith, ?_, ?_, ?_, ?_⟩
        · rw [hx]; exact hqin.1.1
        · rw [hx]; exact hqin.1.2
        · rw [hy]; exact hqin.2.1
        · rw [hy]; exact hqin.2.2
      rw [indicator_of_mem hqin]
      simp only [hG, hp, indicator_of_mem hfr]
      rw [← mul_assoc, ← ENNReal.ofReal_mul (by positivity), hz]
      congr 2
      field_simp
    · have hfr : dirOf (screenPt c q) ∉ frustum c := by
        intro hm
        obtain ⟨_, i1, i2, i3, i4⟩ := hm
        rw [hx] at i1 i2
        rw [hy] at i3 i4
        exact hqin ⟨⟨i1, i2⟩, i3, i4⟩
      rw [indicator_of_notMem hqin]
      simp only [hG, hp, indicator_of_notMem hfr, zero_mul, mul_zero]

example : HasDensityO uniform2 (fun q => resDir (camSampleRay exCam 0 ⟨0, 0, 0, q.1, q.2⟩)) solidAngle (camPdfDirection exCam) := by
  refine C80_camera _ _ ⟨⟨?_, ?_, ?_, ?_, ?_, ?_, ?_⟩, by norm_num [exCam], by norm_num [exCam]⟩ _ _ _ <;> simp [exCam, V3.dot, V3.cross]

end LM.Solid
