import Verif.Props.C80_Density
import Mathlib.MeasureTheory.Measure.Lebesgue.EqHaar
import Mathlib.MeasureTheory.Constructions.Pi
import Mathlib.LinearAlgebra.Matrix.Determinant.Basic
/-
  Linear maps: solid angle does not depend on the frame, and is the cosine over the squared distance times area on a plane.
-/
namespace LM.Solid
open MeasureTheory LM Set
open scoped ENNReal Real

/-- Coordinates as a function on Fin 3. -/
def ofFin (v : Fin 3 → ℝ) : V3 ℝ := ⟨v 0, v 1, v 2⟩
def toFin (p : V3 ℝ) : Fin 3 → ℝ := ![p.x, p.y, p.z]

theorem measurable_ofFin : Measurable ofFin := measurable_mk (measurable_pi_apply 0) (measurable_pi_apply 1) (measurable_pi_apply 2)

theorem vol_eq_pi : vol = (volume : Measure (Fin 3 → ℝ)).map ofFin := by
  have h1 := volume_preserving_piFinSuccAbove (fun _ : Fin 3 => ℝ) 0
  have h2 : MeasurePreserving (MeasurableEquiv.finTwoArrow (α := ℝ)) volume volume := volume_preserving_finTwoArrow ℝ
  have h3 := (MeasurePreserving.id (volume : Measure ℝ)).prod h2
  have h4 := h3.comp h1
  unfold vol
  rw [show (volume : Measure (ℝ × ℝ × ℝ)) = (volume : Measure ℝ).prod (volume : Measure (ℝ × ℝ)) from rfl, ← h4.map_eq, Measure.map_map measurable_ofProd h4.measurable]
  rfl

/-- The linear map with the columns a, b, c. -/
def lin (a b c p : V3 ℝ) : V3 ℝ := p.x • a + p.y • b + p.z • c

def det3 (a b c : V3 ℝ) : ℝ := V3.dot (V3.cross a b) c

theorem measurable_lin (a b c : V3 ℝ) : Measurable (lin a b c) := by
  refine measurable_mk ?_ ?_ ?_ <;> simp only [lin, V3.add_x, V3.add_y, V3.add_z, V3.smul_x, V3.smul_y, V3.smul_z]
  · exact ((measurable_x.mul measurable_const).add (measurable_y.mul measurable_const)).add (measurable_z.mul measurable_const)
  · exact ((measurable_x.mul measurable_const).add (measurable_y.mul measurable_const)).add (measurable_z.mul measurable_const)
  · exact ((measurable_x.mul measurable_const).add (measurable_y.mul measurable_const)).add (measurable_z.mul measurable_const)

theorem lintegral_lin {a b c : V3 ℝ} (hd : det3 a b c ≠ 0) {f : V3 ℝ → ℝ≥0∞} (hf : Measurable f) :
    ∫⁻ p, f p ∂vol = ENNReal.ofReal |det3 a b c| * ∫⁻ p, f (lin a b c p) ∂vol := by
  set M : Matrix (Fin 3) (Fin 3) ℝ := !![a.x, b.x, c.x; a.y, b.y, c.y; a.z, b.z, c.z] with hM
  have hdet : M.det = det3 a b c := by
    rw [hM, Matrix.det_fin_three]
    simp only [Matrix.of_apply, Matrix.cons_val', Matrix.cons_val_zero, Matrix.cons_val_one, Matrix.cons_val_two, Matrix.cons_val_fin_one, Matrix.head_cons, Matrix.tail_cons, Matrix.head_fin_const, Matrix.cons_val, det3, V3.dot, V3.cross]
    ring
  have hmap := Real.map_matrix_volume_pi_eq_smul_volume_pi (M := M) (by rw [hdet]; exact hd)
  have hl : ∀ v, ofFin (Matrix.toLin' M v) = lin a b c (ofFin v) := by
    intro v
    ext <;> simp [ofFin, lin, hM, Matrix.toLin'_apply, Matrix.mulVec, dotProduct, Fin.sum_univ_three] <;> ring
  have hMm : Measurable (Matrix.toLin' M) := (LinearMap.continuous_of_finiteDimensional _).measurable
  rw [vol_eq_pi, lintegral_map hf measurable_ofFin, lintegral_map (f := fun p => f (lin a b c p)) (hf.comp (measurable_lin a b c)) measurable_ofFin]
  have h := congrArg (fun μ : Measure (Fin 3 → ℝ) => ∫⁻ v, f (ofFin v) ∂μ) hmap
  simp only [lintegral_smul_measure, smul_eq_mul] at h
  rw [lintegral_map (f := fun v => f (ofFin v)) (hf.comp measurable_ofFin) hMm] at h
  simp only [hl, hdet] at h
  rw [h, ← mul_assoc, ← ENNReal.ofReal_mul (abs_nonneg _), ← abs_mul, mul_inv_cancel₀ hd, abs_one, ENNReal.ofReal_one, one_mul]

/-- Three mutually perpendicular unit vectors. -/
structure Frame (u v n : V3 ℝ) : Prop where
  uu : V3.dot u u = 1
  vv : V3.dot v v = 1
  nn : V3.dot n n = 1
  uv : V3.dot u v = 0
  un : V3.dot u n = 0
  vn : V3.dot v n = 0

theorem dot_lin {u v n : V3 ℝ} (h : Frame u v n) (p : V3 ℝ) : V3.dot (lin u v n p) (lin u v n p) = V3.dot p p := by
  have e : V3.dot (lin u v n p) (lin u v n p) = p.x ^ 2 * V3.dot u u + p.y ^ 2 * V3.dot v v + p.z ^ 2 * V3.dot n n + 2 * p.x * p.y * V3.dot u v + 2 * p.x * p.z * V3.dot u n + 2 * p.y * p.z * V3.dot v n := by
    simp only [lin, V3.dot, V3.add_x, V3.add_y, V3.add_z, V3.smul_x, V3.smul_y, V3.smul_z]; ring
  rw [e, h.uu, h.vv, h.nn, h.uv, h.un, h.vn]
  simp only [V3.dot]; ring

theorem det_frame {u v n : V3 ℝ} (h : Frame u v n) : |det3 u v n| = 1 := by
  have e : det3 u v n ^ 2 = V3.dot u u * V3.dot v v * V3.dot n n + 2 * V3.dot u v * V3.dot v n * V3.dot u n - V3.dot u u * V3.dot v n ^ 2 - V3.dot v v * V3.dot u n ^ 2 - V3.dot n n * V3.dot u v ^ 2 := by
    simp only [det3, V3.dot, V3.cross]; ring
  rw [h.uu, h.vv, h.nn, h.uv, h.un, h.vn] at e
  have : det3 u v n ^ 2 = 1 := by rw [e]; ring
  have h2 : |det3 u v n| ^ 2 = 1 := by rw [sq_abs]; exact this
  nlinarith [abs_nonneg (det3 u v n)]

theorem dirOf_lin {u v n : V3 ℝ} (h : Frame u v n) (p : V3 ℝ) : dirOf (lin u v n p) = lin u v n (dirOf p) := by
  unfold dirOf
  rw [dot_lin h]
  ext <;> simp [lin] <;> ring

/-- Solid angle does not depend on the frame. -/
theorem solidAngle_frame {u v n : V3 ℝ} (h : Frame u v n) : solidAngle.map (lin u v n) = solidAngle := by
  refine Measure.ext_of_lintegral _ fun f hf => ?_
  rw [lintegral_map hf (measurable_lin u v n), lintegral_solidAngle (f := fun d => f (lin u v n d)) (hf.comp (measurable_lin u v n)), lintegral_solidAngle hf]
  congr 1
  rw [← lintegral_indicator measurableSet_ball, ← lintegral_indicator measurableSet_ball]
  have hd : det3 u v n ≠ 0 := by intro hc; have := det_frame h; rw [hc] at this; simp at this
  symm
  rw [lintegral_lin (f := {p : V3 ℝ | 0 < V3.dot p p ∧ V3.dot p p < 1}.indicator fun p => f (dirOf p)) hd ((hf.comp measurable_dirOf).indicator measurableSet_ball), det_frame h, ENNReal.ofReal_one, one_mul]
  refine lintegral_congr fun p => ?_
  by_cases hp : p ∈ {p : V3 ℝ | 0 < V3.dot p p ∧ V3.dot p p < 1}
  · rw [indicator_of_mem hp, indicator_of_mem (by rw [mem_ofPred_eq, dot_lin h]; exact hp)]
    simp only [dirOf_lin h]
  · rw [indicator_of_notMem hp, indicator_of_notMem (by rw [mem_ofPred_eq, dot_lin h]; exact hp)]

/-! ### A plane seen from the origin -/

theorem scale1 {s : ℝ} (hs : 0 < s) {F : ℝ → ℝ≥0∞} (hF : Measurable F) : ∫⁻ x, F x = ENNReal.ofReal s * ∫⁻ x, F (s * x) := by
  have h := congrArg (fun μ : Measure ℝ => ∫⁻ x, F x ∂μ) (Real.map_volume_mul_left hs.ne')
  simp only [lintegral_smul_measure, smul_eq_mul] at h
  rw [lintegral_map hF (measurable_const_mul s)] at h
  rw [h, ← mul_assoc, ← ENNReal.ofReal_mul hs.le, abs_of_pos (inv_pos.mpr hs), mul_inv_cancel₀ hs.ne', ENNReal.ofReal_one, one_mul]

theorem scale2 {s : ℝ} (hs : 0 < s) {F : ℝ × ℝ → ℝ≥0∞} (hF : Measurable F) : ∫⁻ q, F q = ENNReal.ofReal (s ^ 2) * ∫⁻ q : ℝ × ℝ, F (s * q.1, s * q.2) := by
  have hm : Measurable fun q : ℝ × ℝ => F (s * q.1, s * q.2) := hF.comp ((measurable_fst.const_mul s).prodMk (measurable_snd.const_mul s))
  rw [show (volume : Measure (ℝ × ℝ)) = volume.prod volume from rfl, lintegral_prod _ hF.aemeasurable, lintegral_prod _ hm.aemeasurable]
  have h1 : ∀ x, ∫⁻ y, F (x, y) = ENNReal.ofReal s * ∫⁻ y, F (x, s * y) := fun x => scale1 hs (hF.comp (measurable_const.prodMk measurable_id))
  simp_rw [h1]
  have hm2 : Measurable fun x => ∫⁻ y, F (x, s * y) := Measurable.lintegral_prod_right' (f := fun a : ℝ × ℝ => F (a.1, s * a.2)) (hF.comp (measurable_fst.prodMk (measurable_snd.const_mul s)))
  rw [lintegral_const_mul' _ _ ENNReal.ofReal_ne_top, scale1 hs hm2, ← mul_assoc, ← ENNReal.ofReal_mul hs.le, sq]

theorem third_of {r : ℝ} (hr : 0 < r) : ∫⁻ z in Ioi (0 : ℝ), ENNReal.ofReal (z ^ 2) * (Iio r).indicator 1 z = ENNReal.ofReal (r ^ 3 / 3) := by
  have h1 : ∀ R : ℝ, ENNReal.ofReal (R ^ 2) * (Iio r).indicator 1 R = (Iio r).indicator (fun R => ENNReal.ofReal (R ^ 2)) R := by
    intro R
    by_cases h : R ∈ Iio r
    · rw [indicator_of_mem h, indicator_of_mem h]; simp
    · rw [indicator_of_notMem h, indicator_of_notMem h]; simp
  simp_rw [h1]
  rw [setLIntegral_indicator measurableSet_Iio]
  have e : (Iio r ∩ Ioi 0) = Ioo 0 r := by ext x; simp [and_comm]
  rw [e, ← ofReal_integral_eq_lintegral_ofReal]
  · rw [← integral_Ioc_eq_integral_Ioo, ← intervalIntegral.integral_of_le hr.le, integral_pow]
    norm_num
  · exact ((continuous_pow 2).integrableOn_Icc (a := 0) (b := r)).mono_set Ioo_subset_Icc_self
  · exact Filter.Eventually.of_forall fun x => sq_nonneg x

/-- The point of the plane c + x a + y b. -/
def planePt (a b c : V3 ℝ) (q : ℝ × ℝ) : V3 ℝ := c + q.1 • a + q.2 • b

theorem measurable_planePt (a b c : V3 ℝ) : Measurable (planePt a b c) := by
  refine measurable_mk ?_ ?_ ?_ <;> simp only [planePt, V3.add_x, V3.add_y, V3.add_z, V3.smul_x, V3.smul_y, V3.smul_z]
  · exact (measurable_const.add (measurable_fst.mul measurable_const)).add (measurable_snd.mul measurable_const)
  · exact (measurable_const.add (measurable_fst.mul measurable_const)).add (measurable_snd.mul measurable_const)
  · exact (measurable_const.add (measurable_fst.mul measurable_const)).add (measurable_snd.mul measurable_const)

theorem dot_planePt (a b c : V3 ℝ) (q : ℝ × ℝ) : V3.dot (V3.cross a b) (planePt a b c q) = det3 a b c := by
  simp only [planePt, det3, V3.dot, V3.cross, V3.add_x, V3.add_y, V3.add_z, V3.smul_x, V3.smul_y, V3.smul_z]; ring

theorem dot_pos_of_ne {p n : V3 ℝ} (h : V3.dot n p ≠ 0) : 0 < V3.dot p p := by
  rcases eq_or_lt_of_le (show 0 ≤ V3.dot p p by simp only [V3.dot]; nlinarith [mul_self_nonneg p.x, mul_self_nonneg p.y, mul_self_nonneg p.z]) with h0 | h0
  · exfalso
    have hx : p.x = 0 := by simp only [V3.dot] at h0; nlinarith [mul_self_nonneg p.x, mul_self_nonneg p.y, mul_self_nonneg p.z]
    have hy : p.y = 0 := by simp only [V3.dot] at h0; nlinarith [mul_self_nonneg p.x, mul_self_nonneg p.y, mul_self_nonneg p.z]
    have hz : p.z = 0 := by simp only [V3.dot] at h0; nlinarith [mul_self_nonneg p.x, mul_self_nonneg p.y, mul_self_nonneg p.z]
    exact h (by simp [V3.dot, hx, hy, hz])
  · exact h0

/-- Integration over the directions of a half space, as an integral over a plane seen from the origin. -/
theorem lintegral_plane {a b c : V3 ℝ} (hd : det3 a b c ≠ 0) {f : V3 ℝ → ℝ≥0∞} (hf : Measurable f) :
    ∫⁻ d in {d | 0 < V3.dot (V3.cross a b) d * det3 a b c}, f d ∂solidAngle =
      ∫⁻ q : ℝ × ℝ, ENNReal.ofReal (|det3 a b c| / Real.sqrt (V3.dot (planePt a b c q) (planePt a b c q)) ^ 3) * f (dirOf (planePt a b c q)) := by
  set N := V3.cross a b with hN
  set D := det3 a b c with hD
  have hmN : Measurable fun d : V3 ℝ => V3.dot N d := by
    unfold V3.dot
    exact ((measurable_x.const_mul _).add (measurable_y.const_mul _)).add (measurable_z.const_mul _)
  have hms : MeasurableSet {d : V3 ℝ | 0 < V3.dot N d * D} := measurableSet_lt measurable_const (hmN.mul_const _)
  set S := {d : V3 ℝ | 0 < V3.dot N d * D} with hS
  set P := planePt a b c with hP
  set B := {p : V3 ℝ | 0 < V3.dot p p ∧ V3.dot p p < 1} with hB
  have hPm : Measurable P := measurable_planePt a b c
  have hPN : ∀ q, V3.dot N (P q) = D := dot_planePt a b c
  have hPp : ∀ q, 0 < V3.dot (P q) (P q) := fun q => dot_pos_of_ne (n := N) (by rw [hPN]; exact hd)
  have hfS : Measurable (S.indicator f) := hf.indicator hms
  rw [← lintegral_indicator hms, lintegral_solidAngle hfS, ← lintegral_indicator measurableSet_ball]
  have hGm : Measurable (B.indicator fun p => S.indicator f (dirOf p)) := (hfS.comp measurable_dirOf).indicator measurableSet_ball
  rw [lintegral_lin hd hGm, lintegral_vol (f := fun p => B.indicator (fun p => S.indicator f (dirOf p)) (lin a b c p)) (hGm.comp (measurable_lin a b c))]
  set G := B.indicator fun p => S.indicator f (dirOf p) with hG
  have hdotN : ∀ p : V3 ℝ, V3.dot N (dirOf (lin a b c p)) = 1 / Real.sqrt (V3.dot (lin a b c p) (lin a b c p)) * (p.z * D) := by
    intro p
    simp only [dirOf, lin, hN, hD, det3, V3.dot, V3.cross, V3.add_x, V3.add_y, V3.add_z, V3.smul_x, V3.smul_y, V3.smul_z]; ring
  -- nothing behind the origin
  have hneg : ∀ z : ℝ, ¬ 0 < z → ∀ q : ℝ × ℝ, G (lin a b c ⟨q.1, q.2, z⟩) = 0 := by
    intro z hz q
    rw [hG]
    by_cases hb : lin a b c ⟨q.1, q.2, z⟩ ∈ B
    · rw [indicator_of_mem hb, indicator_of_notMem]
      rw [hS, mem_ofPred_eq, hdotN]
      have h1 : 0 ≤ 1 / Real.sqrt (V3.dot (lin a b c ⟨q.1, q.2, z⟩) (lin a b c ⟨q.1, q.2, z⟩)) := by positivity
      have h2 : z * D * D ≤ 0 := by nlinarith [mul_self_nonneg D]
      rw [not_lt, mul_assoc]
      exact mul_nonpos_of_nonneg_of_nonpos h1 h2
    · rw [indicator_of_notMem hb]
  have hpos : ∀ z : ℝ, 0 < z → ∀ q : ℝ × ℝ, G (lin a b c ⟨z * q.1, z * q.2, z⟩) = (Iio (1 / Real.sqrt (V3.dot (P q) (P q)))).indicator 1 z * f (dirOf (P q)) := by
    intro z hz q
    have hl : lin a b c ⟨z * q.1, z * q.2, z⟩ = z • P q := by
      ext <;> simp [lin, hP, planePt] <;> ring
    have hdot : V3.dot (z • P q) (z • P q) = z ^ 2 * V3.dot (P q) (P q) := by
      simp only [V3.dot, V3.smul_x, V3.smul_y, V3.smul_z]; ring
    have hsq : Real.sqrt (V3.dot (z • P q) (z • P q)) = z * Real.sqrt (V3.dot (P q) (P q)) := by
      rw [hdot, Real.sqrt_mul (sq_nonneg z), Real.sqrt_sq hz.le]
    have hsp : 0 < Real.sqrt (V3.dot (P q) (P q)) := Real.sqrt_pos.mpr (hPp q)
    have hdir : dirOf (z • P q) = dirOf (P q) := by
      unfold dirOf
      rw [hsq]
      ext <;> simp <;> field_simp
    have hmem : dirOf (P q) ∈ S := by
      rw [hS, mem_ofPred_eq]
      have : V3.dot N (dirOf (P q)) = 1 / Real.sqrt (V3.dot (P q) (P q)) * D := by
        rw [← hPN q]
        simp only [dirOf, V3.dot, V3.smul_x, V3.smul_y, V3.smul_z]; ring
      rw [this, mul_assoc]
      have : 0 < D * D := mul_self_pos.mpr hd
      positivity
    rw [hl, hG]
    have hiff : z • P q ∈ B ↔ z ∈ Iio (1 / Real.sqrt (V3.dot (P q) (P q))) := by
      rw [hB, mem_ofPred_eq, mem_Iio, lt_div_iff₀ hsp, ← hsq, hdot]
      constructor
      · rintro ⟨_, h2⟩
        rw [Real.sqrt_lt' one_pos, one_pow]; exact h2
      · intro h2
        rw [Real.sqrt_lt' one_pos, one_pow] at h2
        exact ⟨mul_pos (by positivity) (hPp q), h2⟩
    by_cases hb : z ∈ Iio (1 / Real.sqrt (V3.dot (P q) (P q)))
    · rw [indicator_of_mem (hiff.mpr hb), indicator_of_mem hb, hdir, indicator_of_mem hmem]; simp
    · rw [indicator_of_notMem (fun h => hb (hiff.mp h)), indicator_of_notMem hb]; simp
  have hstep : ∫⁻ z : ℝ, ∫⁻ q : ℝ × ℝ, G (lin a b c ⟨q.1, q.2, z⟩) = ∫⁻ z in Ioi (0 : ℝ), ∫⁻ q : ℝ × ℝ, ENNReal.ofReal (z ^ 2) * ((Iio (1 / Real.sqrt (V3.dot (P q) (P q)))).indicator 1 z * f (dirOf (P q))) := by
    rw [← lintegral_indicator measurableSet_Ioi]
    refine lintegral_congr fun z => ?_
    by_cases hz : z ∈ Ioi (0 : ℝ)
    · rw [indicator_of_mem hz]
      have hm : Measurable fun q : ℝ × ℝ => G (lin a b c ⟨q.1, q.2, z⟩) := (hGm.comp (measurable_lin a b c)).comp (measurable_mk measurable_fst measurable_snd measurable_const)
      rw [scale2 hz hm, ← lintegral_const_mul' _ _ ENNReal.ofReal_ne_top]
      refine lintegral_congr fun q => ?_
      rw [hpos z hz]
    · rw [indicator_of_notMem hz]
      have : ∀ q : ℝ × ℝ, G (lin a b c ⟨q.1, q.2, z⟩) = 0 := hneg z hz
      simp [this]
  rw [hstep, lintegral_lintegral_swap]
  · have hin : ∀ q : ℝ × ℝ, ∫⁻ z in Ioi (0 : ℝ), ENNReal.ofReal (z ^ 2) * ((Iio (1 / Real.sqrt (V3.dot (P q) (P q)))).indicator 1 z * f (dirOf (P q))) =
        ENNReal.ofReal ((1 / Real.sqrt (V3.dot (P q) (P q))) ^ 3 / 3) * f (dirOf (P q)) := by
      intro q
      have hsp : 0 < 1 / Real.sqrt (V3.dot (P q) (P q)) := by have := Real.sqrt_pos.mpr (hPp q); positivity
      rw [← third_of hsp, ← lintegral_mul_const]
      · refine lintegral_congr fun z => ?_
        rw [mul_assoc]
      · exact ((measurable_id.pow_const 2).ennreal_ofReal).mul (measurable_one.indicator measurableSet_Iio)
    simp_rw [hin]
    rw [← mul_assoc, ← lintegral_const_mul' _ _ (ENNReal.mul_ne_top (by norm_num) ENNReal.ofReal_ne_top)]
    refine lintegral_congr fun q => ?_
    have hsp : 0 < Real.sqrt (V3.dot (P q) (P q)) := Real.sqrt_pos.mpr (hPp q)
    rw [← mul_assoc, show (3 : ℝ≥0∞) = ENNReal.ofReal 3 by norm_num, ← ENNReal.ofReal_mul (by norm_num), ← ENNReal.ofReal_mul (by positivity)]
    congr 2
    rw [← hD]
    field_simp
  · refine Measurable.aemeasurable ?_
    have hr : Measurable fun p : ℝ × ℝ × ℝ => 1 / Real.sqrt (V3.dot (P p.2) (P p.2)) := measurable_const.div ((measurable_dot.comp (hPm.comp measurable_snd)).sqrt)
    refine ((measurable_fst.pow_const 2).ennreal_ofReal).mul (Measurable.mul ?_ (hf.comp (measurable_dirOf.comp (hPm.comp measurable_snd))))
    have : (fun p : ℝ × ℝ × ℝ => (Iio (1 / Real.sqrt (V3.dot (P p.2) (P p.2)))).indicator (1 : ℝ → ℝ≥0∞) p.1) = {p : ℝ × ℝ × ℝ | p.1 < 1 / Real.sqrt (V3.dot (P p.2) (P p.2))}.indicator 1 := by
      ext p
      simp only [indicator, mem_Iio, mem_ofPred_eq, Pi.one_apply]
    rw [this]
    exact measurable_one.indicator (measurableSet_lt measurable_fst hr)

end LM.Solid
