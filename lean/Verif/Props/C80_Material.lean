import Verif.Props.C80_Linear
import Verif.Props.C45_Material
import Verif.Spec.Density
/-
  C80: materials sample directions with the density they report.
-/
namespace LM.Solid
open MeasureTheory LM Set LM.MathF LM.Surface LM.Material
open scoped ENNReal Real

theorem lintegral_uniform3 {f : ℝ × ℝ × ℝ → ℝ≥0∞} (hf : Measurable f) : ∫⁻ u, f u ∂uniform3 = ∫⁻ u2 in Ioo (0 : ℝ) 1, ∫⁻ u : ℝ × ℝ, f (u.1, u.2, u2) ∂uniform2 := by
  have hinv : ∀ x : ℝ, ∫⁻ q in Ico (0 : ℝ) 1 ×ˢ Ico (0 : ℝ) 1, f (x, q) = ∫⁻ u1 in Ico (0 : ℝ) 1, ∫⁻ u2 in Ico (0 : ℝ) 1, f (x, u1, u2) := by
    intro x
    rw [show (volume : Measure (ℝ × ℝ)) = volume.prod volume from rfl, ← Measure.prod_restrict, lintegral_prod (f := fun q => f (x, q)) (hf.comp (measurable_const.prodMk measurable_id)).aemeasurable]
  have h1 : ∫⁻ u, f u ∂uniform3 = ∫⁻ x in Ico (0 : ℝ) 1, ∫⁻ u1 in Ico (0 : ℝ) 1, ∫⁻ u2 in Ico (0 : ℝ) 1, f (x, u1, u2) := by
    unfold uniform3
    rw [show (volume : Measure (ℝ × ℝ × ℝ)) = (volume : Measure ℝ).prod (volume : Measure (ℝ × ℝ)) from rfl, ← Measure.prod_restrict, lintegral_prod _ hf.aemeasurable]
    exact lintegral_congr fun x => hinv x
  have h2 : ∀ u2 : ℝ, ∫⁻ u : ℝ × ℝ, f (u.1, u.2, u2) ∂uniform2 = ∫⁻ x in Ico (0 : ℝ) 1, ∫⁻ u1 in Ico (0 : ℝ) 1, f (x, u1, u2) := by
    intro u2
    unfold uniform2
    rw [show (volume : Measure (ℝ × ℝ)) = volume.prod volume from rfl, ← Measure.prod_restrict, lintegral_prod]
    exact (hf.comp (measurable_fst.prodMk (measurable_snd.prodMk measurable_const))).aemeasurable
  simp_rw [h2]
  rw [h1, restrict_Ioo_eq_restrict_Ico]
  have h3 : ∀ x : ℝ, ∫⁻ u1 in Ico (0 : ℝ) 1, ∫⁻ u2 in Ico (0 : ℝ) 1, f (x, u1, u2) = ∫⁻ u2 in Ico (0 : ℝ) 1, ∫⁻ u1 in Ico (0 : ℝ) 1, f (x, u1, u2) := by
    intro x
    exact lintegral_lintegral_swap (hf.comp (measurable_const.prodMk measurable_id)).aemeasurable
  simp_rw [h3]
  rw [lintegral_lintegral_swap]
  refine Measurable.aemeasurable ?_
  exact Measurable.lintegral_prod_right' (f := fun a : (ℝ × ℝ) × ℝ => f (a.1.1, a.2, a.1.2)) (hf.comp (measurable_fst.fst.prodMk (measurable_snd.prodMk measurable_fst.snd)))

/-- The first two of three numbers. -/
theorem lintegral_first2 {f : ℝ × ℝ → ℝ≥0∞} (hf : Measurable f) : ∫⁻ u : ℝ × ℝ × ℝ, f (u.1, u.2.1) ∂uniform3 = ∫⁻ u, f u ∂uniform2 := by
  rw [lintegral_uniform3 (f := fun u => f (u.1, u.2.1)) (hf.comp (measurable_fst.prodMk measurable_snd.fst))]
  simp

theorem hasDensity_of {U : Type} [MeasurableSpace U] {μ : Measure U} {sample : U → DirRes} {σ : Measure (V3 ℝ)} {p : V3 ℝ → Option ℝ} (S : Set U) (W : U → V3 ℝ) (hS : MeasurableSet S) (hW : Measurable W)
    (hp : AEMeasurable (fun d => dens (p d)) σ) (hev : ∀ A, event sample A = S ∩ W ⁻¹' A) (hlaw : ∀ A, MeasurableSet A → ∫⁻ u in S, A.indicator 1 (W u) ∂μ = ∫⁻ d in A, dens (p d) ∂σ) : HasDensity μ sample σ p := by
  refine ⟨hp, fun A hA => ?_⟩
  have hm : MeasurableSet (W ⁻¹' A) := hW hA
  rw [hev A]
  refine ⟨(hS.inter hm).nullMeasurableSet, ?_⟩
  rw [← hlaw A hA]
  have : ∀ u, A.indicator (1 : V3 ℝ → ℝ≥0∞) (W u) = (W ⁻¹' A).indicator 1 u := fun u => rfl
  simp_rw [this]
  rw [lintegral_indicator_one hm, Measure.restrict_apply hm, inter_comm]

theorem lintegral_frame {u v n : V3 ℝ} (h : Frame u v n) {f : V3 ℝ → ℝ≥0∞} (hf : Measurable f) : ∫⁻ d, f (lin u v n d) ∂solidAngle = ∫⁻ d, f d ∂solidAngle := by
  conv_rhs => rw [← solidAngle_frame h]
  rw [lintegral_map hf (measurable_lin u v n)]

theorem frame_of {u v n : V3 ℝ} (h : Orthonormal u v n) : Frame u v n := by
  obtain ⟨h1, h2, h3, h4, h5, h6, _⟩ := h
  exact ⟨h1, h2, h3, h4, h5, h6⟩

theorem measurable_dotc (n : V3 ℝ) : Measurable fun d : V3 ℝ => V3.dot d n := by
  unfold V3.dot
  exact ((measurable_x.mul measurable_const).add (measurable_y.mul measurable_const)).add (measurable_z.mul measurable_const)

theorem lin_dot_n {u v n : V3 ℝ} (h : Frame u v n) (d : V3 ℝ) : V3.dot (lin u v n d) n = d.z := by
  have e : V3.dot (lin u v n d) n = d.x * V3.dot u n + d.y * V3.dot v n + d.z * V3.dot n n := by
    simp only [lin, V3.dot, V3.add_x, V3.add_y, V3.add_z, V3.smul_x, V3.smul_y, V3.smul_z]; ring
  rw [e, h.un, h.vn, h.nn]; ring

theorem lintegral_projSA {n : V3 ℝ} {A : Set (V3 ℝ)} (hA : MeasurableSet A) (f : V3 ℝ → ℝ≥0∞) :
    ∫⁻ d in A, f d ∂projSolidAngle n = ∫⁻ d in A, ENNReal.ofReal |V3.dot d n| * f d ∂solidAngle := by
  unfold projSolidAngle
  rw [restrict_withDensity hA, lintegral_withDensity_eq_lintegral_mul_non_measurable (f := fun d => ENNReal.ofReal |V3.dot d n|) _ (continuous_abs.measurable.comp (measurable_dotc n)).ennreal_ofReal]
  · rfl
  · exact Filter.Eventually.of_forall fun _ => ENNReal.ofReal_lt_top

/-- Cosine-weighted directions around n. -/
theorem law_cosine {u v n : V3 ℝ} (h : Frame u v n) {f : V3 ℝ → ℝ≥0∞} (hf : Measurable f) :
    ∫⁻ q : ℝ × ℝ, f (lin u v n (sampleCosineWeighted q.1 q.2)) ∂uniform2 = ∫⁻ d, ENNReal.ofReal (V3.dot d n / π) * f d ∂solidAngle := by
  have hm : Measurable fun d : V3 ℝ => ENNReal.ofReal (d.z / π) := (measurable_z.div_const _).ennreal_ofReal
  have hfl : Measurable fun d => f (lin u v n d) := hf.comp (measurable_lin u v n)
  have e := congrArg (fun μ : Measure (V3 ℝ) => ∫⁻ d, f (lin u v n d) ∂μ) C80_cosine
  rw [lintegral_map hfl measurable_cosine, lintegral_withDensity_eq_lintegral_mul _ hm hfl] at e
  rw [e, ← lintegral_frame h (f := fun d => ENNReal.ofReal (V3.dot d n / π) * f d) ((((measurable_dotc n).div_const _).ennreal_ofReal).mul hf)]
  refine lintegral_congr fun d => ?_
  simp only [Pi.mul_apply, lin_dot_n h]

theorem opposite_false_iff (g : Geom) (wi wo : V3 ℝ) : opposite g wi wo = true ↔ V3.dot wi g.n * V3.dot wo g.n ≤ 0 := by
  simp [opposite]

/-- The direction does not depend on the number that selects a component, and has the reported density. -/
def FreeDensity (m : Mat) (comp : Nat) (g : Geom) (wi : V3 ℝ) : Prop :=
  (∀ us udc dir, m.sampleDirection us g wi comp dir = m.sampleDirection ⟨us.ud0, us.ud1, udc⟩ g wi comp dir) ∧
    ∀ dir, HasDensity uniform2 (fun q => m.sampleDirection ⟨q.1, q.2, 0⟩ g wi comp dir) (projSolidAngle g.n) (fun d => m.pdfDirection g wi d comp false)

/-- The first two of three numbers. -/
theorem first2 : MeasurePreserving (fun u : ℝ × ℝ × ℝ => (u.1, u.2.1)) uniform3 uniform2 := by
  have hm : Measurable fun u : ℝ × ℝ × ℝ => (u.1, u.2.1) := measurable_fst.prodMk measurable_snd.fst
  refine ⟨hm, Measure.ext_of_lintegral _ fun f hf => ?_⟩
  rw [lintegral_map hf hm, lintegral_first2 hf]

theorem materialDensity_of_free {m : Mat} {comp : Nat} {g : Geom} {wi : V3 ℝ} (h : FreeDensity m comp g wi) : MaterialDensity m comp g wi := by
  intro dir
  refine ⟨(h.2 dir).1, fun A hA => ?_⟩
  obtain ⟨h1, h2⟩ := (h.2 dir).2 A hA
  have e : event (fun u : ℝ × ℝ × ℝ => m.sampleDirection ⟨u.1, u.2.1, u.2.2⟩ g wi comp dir) A = (fun u : ℝ × ℝ × ℝ => (u.1, u.2.1)) ⁻¹' event (fun q => m.sampleDirection ⟨q.1, q.2, 0⟩ g wi comp dir) A := by
    ext u
    simp only [event, mem_ofPred_eq, mem_preimage]
    rw [h.1 ⟨u.1, u.2.1, u.2.2⟩ 0]
  rw [e]
  exact ⟨h1.preimage first2.quasiMeasurePreserving, by rw [first2.measure_preimage h1, h2]⟩

theorem opposite_measurable (g : Geom) (wi : V3 ℝ) : MeasurableSet {d : V3 ℝ | opposite g wi d = false} := by
  have : {d : V3 ℝ | opposite g wi d = false} = {d | 0 < V3.dot wi g.n * V3.dot d g.n} := by
    ext d; simp [opposite]
  rw [this]
  exact measurableSet_lt measurable_const ((measurable_dotc g.n).const_mul _)

theorem diffuse_free (Kd : Geom → V3 ℝ) (comp : Nat) (g : Geom) (wi : V3 ℝ) (h : OnSurface g) (hw : V3.dot wi g.n ≠ 0) : FreeDensity (diffuse Kd) comp g wi := by
  refine ⟨fun _ _ _ => rfl, fun dir => ?_⟩
  obtain ⟨n, u, v, hb, hon, hwi, hside⟩ := twosided g wi h hw
  have hF := frame_of hon
  have hWm : Measurable fun q : ℝ × ℝ => lin u v n (sampleCosineWeighted q.1 q.2) := (measurable_lin u v n).comp measurable_cosine
  refine hasDensity_of univ (fun q => lin u v n (sampleCosineWeighted q.1 q.2)) MeasurableSet.univ hWm ?_ ?_ ?_
  · refine Measurable.aemeasurable ?_
    have : (fun d => dens ((diffuse Kd).pdfDirection g wi d comp false)) = {d | opposite g wi d = false}.indicator (fun _ => ENNReal.ofReal (1 / π)) := by
      ext d
      simp only [diffuse, dens]
      by_cases ho : opposite g wi d = true
      · rw [indicator_of_notMem (by rw [mem_ofPred_eq, ho]; simp)]; simp [ho]
      · rw [indicator_of_mem (by rw [mem_ofPred_eq]; simpa using ho)]; simp [ho]
    rw [this]
    exact measurable_const.indicator (opposite_measurable g wi)
  · intro A
    ext q
    simp only [event, diffuse, hb, mem_ofPred_eq, univ_inter, mem_preimage, DirRes.ok.injEq, lin]
    constructor
    · rintro ⟨wo, C, ⟨rfl, _⟩, hA⟩; exact hA
    · intro hA; exact ⟨_, _, ⟨rfl, rfl⟩, hA⟩
  · intro A hA
    rw [Measure.restrict_univ, lintegral_projSA hA]
    have hm1 : Measurable (A.indicator (1 : V3 ℝ → ℝ≥0∞)) := measurable_one.indicator hA
    rw [law_cosine hF hm1, ← lintegral_indicator hA]
    refine lintegral_congr fun d => ?_
    by_cases hd : d ∈ A
    · rw [indicator_of_mem hd, indicator_of_mem hd]
      simp only [Pi.one_apply, mul_one, diffuse, dens]
      have hs := side_of g wi d n u v hside
      have habs : |V3.dot d g.n| = |V3.dot d n| := by
        rcases hside with ⟨rfl, _⟩ | ⟨rfl, _⟩
        · rfl
        · rw [V3.dot_neg_right, abs_neg]
      by_cases ho : opposite g wi d = true
      · rw [if_pos ho]
        rw [opposite_false_iff] at ho
        have : ¬ 0 < V3.dot d n := fun hc => absurd (hs.mpr hc) (not_lt.mpr ho)
        rw [ENNReal.ofReal_eq_zero.mpr (div_nonpos_of_nonpos_of_nonneg (not_lt.mp this) Real.pi_pos.le)]
        simp
      · rw [if_neg ho]
        rw [opposite_false_iff, not_le] at ho
        rw [← ENNReal.ofReal_mul (abs_nonneg _), habs, abs_of_pos (hs.mp ho)]
        congr 1; ring
    · rw [indicator_of_notMem hd, indicator_of_notMem hd, mul_zero]

/-- C80. Diffuse materials sample directions with the density they report. -/
theorem C80_diffuse (Kd : Geom → V3 ℝ) (comp : Nat) (g : Geom) (wi : V3 ℝ) (h : OnSurface g) (hw : V3.dot wi g.n ≠ 0) : MaterialDensity (diffuse Kd) comp g wi :=
  materialDensity_of_free (diffuse_free Kd comp g wi h hw)

example : MaterialDensity (diffuse fun _ => ⟨1, 1, 1⟩) 0 exGeom ⟨0, 0, 1⟩ :=
  C80_diffuse _ _ _ _ (by simp [OnSurface, MathF.Orthonormal, exGeom, V3.dot, V3.cross]) (by simp [exGeom, V3.dot])

end LM.Solid
