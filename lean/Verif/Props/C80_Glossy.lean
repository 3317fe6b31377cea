import Verif.Props.C80_Material
/-
  C80: the GGX material samples directions with the density it reports.
-/
namespace LM.Solid
open MeasureTheory LM Set LM.MathF LM.Surface LM.Material
open scoped ENNReal Real

/-- u = r²/(1+r²) -/
theorem cov_slope (F : ℝ → ℝ≥0∞) : ∫⁻ u in Ioo 0 1, F u = ∫⁻ r in Ioi (0 : ℝ), ENNReal.ofReal (2 * r / (1 + r ^ 2) ^ 2) * F (r ^ 2 / (1 + r ^ 2)) := by
  have him : (fun r : ℝ => r ^ 2 / (1 + r ^ 2)) '' Ioi 0 = Ioo 0 1 := by
    ext u; constructor
    · rintro ⟨r, hr, rfl⟩
      rw [mem_Ioi] at hr
      exact ⟨by positivity, by simp only; rw [div_lt_one (by positivity)]; linarith⟩
    · intro hu
      have h1 : 0 < 1 - u := by linarith [hu.2]
      refine ⟨Real.sqrt (u / (1 - u)), Real.sqrt_pos.mpr (div_pos hu.1 h1), ?_⟩
      simp only
      rw [Real.sq_sqrt (div_pos hu.1 h1).le]
      field_simp
      ring
  rw [← him, lintegral_image_eq_lintegral_abs_deriv_mul measurableSet_Ioi (f' := fun r => 2 * r / (1 + r ^ 2) ^ 2)]
  · refine setLIntegral_congr_fun measurableSet_Ioi fun r hr => ?_
    rw [mem_Ioi] at hr
    rw [abs_of_nonneg (by positivity)]
  · intro r _
    have h1 := (hasDerivAt_id' r).fun_pow 2
    have h2 := h1.fun_div (h1.const_add 1) (by positivity)
    refine (h2.congr_deriv ?_).hasDerivWithinAt
    simp only [Nat.cast_ofNat]
    congr 1
    ring
  · intro x hx y hy hxy
    rw [mem_Ioi] at hx hy
    simp only at hxy
    rw [div_eq_div_iff (by positivity) (by positivity)] at hxy
    have : x ^ 2 = y ^ 2 := by linarith
    exact (pow_left_inj₀ hx.le hy.le two_ne_zero).mp this

/-- The slopes sampled by the glossy material. -/
noncomputable def slope (u : ℝ × ℝ) : ℝ × ℝ := (safeSqrt (u.2 / (1 - u.2)) * Real.cos (u.1 * 2 * π), safeSqrt (u.2 / (1 - u.2)) * Real.sin (u.1 * 2 * π))

theorem measurable_slope : Measurable slope := by
  have h1 : Measurable fun u : ℝ × ℝ => safeSqrt (u.2 / (1 - u.2)) := measurable_safeSqrt.comp (measurable_snd.div (measurable_const.sub measurable_snd))
  have h2 : Measurable fun u : ℝ × ℝ => u.1 * 2 * π := (measurable_fst.mul_const 2).mul_const π
  exact (h1.mul (Real.measurable_cos.comp h2)).prodMk (h1.mul (Real.measurable_sin.comp h2))

theorem law_slope {F : ℝ × ℝ → ℝ≥0∞} (hF : Measurable F) : ∫⁻ u, F (slope u) ∂uniform2 = ∫⁻ q : ℝ × ℝ, ENNReal.ofReal (1 / (π * (1 + q.1 ^ 2 + q.2 ^ 2) ^ 2)) * F q := by
  have hFs : Measurable fun u => F (slope u) := hF.comp measurable_slope
  have hw : Measurable fun q : ℝ × ℝ => ENNReal.ofReal (1 / (π * (1 + q.1 ^ 2 + q.2 ^ 2) ^ 2)) :=
    (measurable_const.div (measurable_const.mul (((measurable_const.add (measurable_fst.pow_const 2)).add (measurable_snd.pow_const 2)).pow_const 2))).ennreal_ofReal
  rw [lintegral_polar (F := fun q => ENNReal.ofReal (1 / (π * (1 + q.1 ^ 2 + q.2 ^ 2) ^ 2)) * F q) (hw.mul hF), lintegral_uniform2 (f := fun u => F (slope u)) hFs]
  rw [lintegral_lintegral_swap (f := fun u0 u1 => F (slope (u0, u1))) hFs.aemeasurable, cov_slope]
  refine setLIntegral_congr_fun measurableSet_Ioi fun r hr => ?_
  rw [mem_Ioi] at hr
  have hu : r ^ 2 / (1 + r ^ 2) / (1 - r ^ 2 / (1 + r ^ 2)) = r ^ 2 := by field_simp; ring
  have hs : safeSqrt (r ^ 2) = r := by unfold safeSqrt; rw [max_eq_right (sq_nonneg _), Real.sqrt_sq hr.le]
  simp only [slope, hu, hs]
  have hm : Measurable fun t : ℝ => F (r * Real.cos t, r * Real.sin t) := hF.comp ((measurable_const.mul Real.measurable_cos).prodMk (measurable_const.mul Real.measurable_sin))
  have e : ∀ u0 : ℝ, u0 * 2 * π = 2 * π * u0 := fun u0 => by ring
  simp only [e]
  rw [period_lemma (F := fun t => F (r * Real.cos t, r * Real.sin t)) hm (fun t => by rw [Real.cos_add_two_pi, Real.sin_add_two_pi])]
  rw [← mul_assoc, ← ENNReal.ofReal_mul (by positivity), ← lintegral_const_mul' _ _ ENNReal.ofReal_ne_top]
  refine lintegral_congr fun t => ?_
  rw [← mul_assoc, ← ENNReal.ofReal_mul hr.le]
  congr 2
  have : 1 + (r * Real.cos t) ^ 2 + (r * Real.sin t) ^ 2 = 1 + r ^ 2 := by
    have := Real.sin_sq_add_cos_sq t
    linear_combination r ^ 2 * this
  rw [this]
  field_simp

/-- The normal distribution D of the GGX model, as a real function. -/
noncomputable def ggxD (ax ay : ℝ) (u v n d : V3 ℝ) : ℝ := 1 / (π * ax * ay * ((V3.dot d u / ax) ^ 2 + (V3.dot d v / ay) ^ 2 + V3.dot d n ^ 2) ^ 2)

theorem measurable_ggxD (ax ay : ℝ) (u v n : V3 ℝ) : Measurable (ggxD ax ay u v n) :=
  measurable_const.div (measurable_const.mul (((((measurable_dotc u).div_const ax).pow_const 2).add (((measurable_dotc v).div_const ay).pow_const 2)).add ((measurable_dotc n).pow_const 2) |>.pow_const 2))

theorem cross_frame {u v n : V3 ℝ} (h : Orthonormal u v n) : V3.cross u v = n := h.2.2.2.2.2.2

/-- Half vectors have the density D(h) (h·n). -/
theorem law_half {u v n : V3 ℝ} {ax ay : ℝ} (hax : 0 < ax) (hay : 0 < ay) (hon : Orthonormal u v n) {F : V3 ℝ → ℝ≥0∞} (hF : Measurable F) :
    ∫⁻ q, F (dirOf (planePt (ax • u) (ay • v) n (slope q))) ∂uniform2 = ∫⁻ d in {d | 0 < V3.dot d n}, ENNReal.ofReal (ggxD ax ay u v n d * V3.dot d n) * F d ∂solidAngle := by
  have hfr := frame_of hon
  have hcr : V3.cross (ax • u) (ay • v) = (ax * ay) • n := by
    rw [← cross_frame hon]
    ext <;> simp [V3.cross] <;> ring
  have hdet : det3 (ax • u) (ay • v) n = ax * ay := by
    unfold det3
    rw [hcr, V3.dot_smul_left, hfr.nn, mul_one]
  have hpos : 0 < ax * ay := mul_pos hax hay
  have hset : {d : V3 ℝ | 0 < V3.dot (V3.cross (ax • u) (ay • v)) d * det3 (ax • u) (ay • v) n} = {d | 0 < V3.dot d n} := by
    ext d
    rw [mem_ofPred_eq, mem_ofPred_eq, hcr, hdet, V3.dot_smul_left, V3.dot_comm n d]
    constructor
    · intro hc; by_contra hn; nlinarith [mul_pos hpos hpos]
    · intro hc; positivity
  have hm : Measurable fun d => ENNReal.ofReal (ggxD ax ay u v n d * V3.dot d n) * F d := (((measurable_ggxD ax ay u v n).mul (measurable_dotc n)).ennreal_ofReal).mul hF
  have hpl := lintegral_plane (a := ax • u) (b := ay • v) (c := n) (by rw [hdet]; exact hpos.ne') hm
  rw [hset] at hpl
  rw [hpl, law_slope (F := fun q => F (dirOf (planePt (ax • u) (ay • v) n q))) (hF.comp (measurable_dirOf.comp (measurable_planePt _ _ _)))]
  refine lintegral_congr fun q => ?_
  set P := planePt (ax • u) (ay • v) n q with hP
  have hPn : V3.dot P n = 1 := by
    simp only [hP, planePt, V3.dot_add_left, V3.dot_smul_left, hfr.nn, hfr.un, hfr.vn]; ring
  have hPu : V3.dot P u = q.1 * ax := by
    simp only [hP, planePt, V3.dot_add_left, V3.dot_smul_left, hfr.uu, V3.dot_comm n u, hfr.un, V3.dot_comm v u, hfr.uv]; ring
  have hPv : V3.dot P v = q.2 * ay := by
    simp only [hP, planePt, V3.dot_add_left, V3.dot_smul_left, hfr.vv, V3.dot_comm n v, hfr.vn, hfr.uv]; ring
  have hpp : 0 < V3.dot P P := dot_pos_of_ne (n := n) (by rw [V3.dot_comm, hPn]; exact one_ne_zero)
  set L := Real.sqrt (V3.dot P P) with hL
  have hLp : 0 < L := Real.sqrt_pos.mpr hpp
  rw [← mul_assoc, hdet, abs_of_pos hpos, ← ENNReal.ofReal_mul (by positivity)]
  congr 2
  have e1 : V3.dot (dirOf P) n = 1 / L := by unfold dirOf; rw [V3.dot_smul_left, hPn, mul_one]
  have e2 : V3.dot (dirOf P) u = q.1 * ax / L := by unfold dirOf; rw [V3.dot_smul_left, hPu]; ring
  have e3 : V3.dot (dirOf P) v = q.2 * ay / L := by unfold dirOf; rw [V3.dot_smul_left, hPv]; ring
  unfold ggxD
  rw [e1, e2, e3]
  have hq : (1 + q.1 ^ 2 + q.2 ^ 2) ≠ 0 := by positivity
  have : (q.1 * ax / L / ax) ^ 2 + (q.2 * ay / L / ay) ^ 2 + (1 / L) ^ 2 = (1 + q.1 ^ 2 + q.2 ^ 2) / L ^ 2 := by field_simp; ring
  rw [this]
  field_simp

/-- Reflection at the half vector: the solid angle of reflected directions is 4 (w·h) times that of the half vectors. -/
theorem law_reflection {w : V3 ℝ} (hw : V3.dot w w = 1) {G : V3 ℝ → ℝ≥0∞} (hG : Measurable G) :
    ∫⁻ d in {d | 0 < V3.dot d w}, ENNReal.ofReal (4 * V3.dot d w) * G (reflection w d) ∂solidAngle = ∫⁻ d, G d ∂solidAngle := by
  have hon := C32_basis w false hw
  set a := (orthonormalBasis w false).1
  set b := (orthonormalBasis w false).2
  have hfr := frame_of hon
  have hms : MeasurableSet {d : V3 ℝ | 0 < V3.dot d w} := measurableSet_lt measurable_const (measurable_dotc w)
  have hrm : Measurable fun d : V3 ℝ => reflection w d := by
    have hd : Measurable fun d : V3 ℝ => V3.dot w d := by simp_rw [V3.dot_comm w]; exact measurable_dotc w
    unfold reflection
    exact measurable_mk (((hd.const_mul 2).mul measurable_x).sub_const _) (((hd.const_mul 2).mul measurable_y).sub_const _) (((hd.const_mul 2).mul measurable_z).sub_const _)
  have hm : Measurable fun d => ENNReal.ofReal (4 * V3.dot d w) * G (reflection w d) := (((measurable_dotc w).const_mul 4).ennreal_ofReal).mul (hG.comp hrm)
  have hGl : Measurable fun d => G (lin a b w d) := hG.comp (measurable_lin a b w)
  rw [← lintegral_indicator hms, ← lintegral_frame hfr (hm.indicator hms), ← lintegral_frame hfr hG]
  have hmi : Measurable fun d => {d : V3 ℝ | 0 < V3.dot d w}.indicator (fun d => ENNReal.ofReal (4 * V3.dot d w) * G (reflection w d)) (lin a b w d) := (hm.indicator hms).comp (measurable_lin a b w)
  rw [lintegral_spherical hmi, lintegral_spherical hGl]
  have hdbl := cov (a := 0) (b := π / 2) (c := 0) (d := π) (fun θ => 2 * θ) (fun _ => 2) (fun x _ => by simpa using (hasDerivAt_id x).const_mul 2) (fun x _ y _ hxy => by simpa using hxy)
    (by ext t; constructor
        · rintro ⟨x, hx, rfl⟩; exact ⟨by have := hx.1; positivity, by simp only; linarith [hx.2]⟩
        · intro ht; exact ⟨t / 2, ⟨by have := ht.1; positivity, by linarith [ht.2]⟩, by simp only; ring⟩)
    (fun θ => ∫⁻ t in Ioo (-π) π, ENNReal.ofReal (Real.sin θ) * G (lin a b w ⟨Real.sin θ * Real.cos t, Real.sin θ * Real.sin t, Real.cos θ⟩))
  rw [hdbl, ← lintegral_indicator measurableSet_Ioo, ← lintegral_indicator measurableSet_Ioo]
  refine lintegral_congr fun θ => ?_
  by_cases h1 : θ ∈ Ioo 0 (π / 2)
  · have h1' : θ ∈ Ioo 0 π := ⟨h1.1, by linarith [h1.2, Real.pi_pos]⟩
    rw [indicator_of_mem h1, indicator_of_mem h1', ← lintegral_const_mul' _ _ ENNReal.ofReal_ne_top]
    refine lintegral_congr fun t => ?_
    have hc : 0 < Real.cos θ := Real.cos_pos_of_mem_Ioo ⟨by linarith [h1.1, Real.pi_pos], h1.2⟩
    have hs : 0 < Real.sin θ := Real.sin_pos_of_pos_of_lt_pi h1'.1 h1'.2
    set d : V3 ℝ := ⟨Real.sin θ * Real.cos t, Real.sin θ * Real.sin t, Real.cos θ⟩ with hd
    have hdw : V3.dot (lin a b w d) w = Real.cos θ := lin_dot_n hfr d
    rw [indicator_of_mem (show lin a b w d ∈ {d : V3 ℝ | 0 < V3.dot d w} by rw [mem_ofPred_eq, hdw]; exact hc), hdw]
    have hr : reflection w (lin a b w d) = lin a b w ⟨Real.sin (2 * θ) * Real.cos t, Real.sin (2 * θ) * Real.sin t, Real.cos (2 * θ)⟩ := by
      unfold reflection
      rw [V3.dot_comm, hdw, Real.sin_two_mul, Real.cos_two_mul]
      ext <;> simp [lin, hd] <;> ring
    rw [hr, ← mul_assoc, ← mul_assoc, ← ENNReal.ofReal_mul hs.le, ← ENNReal.ofReal_mul (by positivity)]
    congr 2
    rw [abs_of_pos two_pos, Real.sin_two_mul]; ring
  · rw [indicator_of_notMem h1]
    by_cases h2 : θ ∈ Ioo 0 π
    · rw [indicator_of_mem h2]
      have h3 : π / 2 ≤ θ := by by_contra hc; exact h1 ⟨h2.1, not_le.mp hc⟩
      have h4 : Real.cos θ ≤ 0 := Real.cos_nonpos_of_pi_div_two_le_of_le h3 (by linarith [h2.2, Real.pi_pos])
      have : ∀ t, ENNReal.ofReal (Real.sin θ) * {d : V3 ℝ | 0 < V3.dot d w}.indicator (fun d => ENNReal.ofReal (4 * V3.dot d w) * G (reflection w d)) (lin a b w ⟨Real.sin θ * Real.cos t, Real.sin θ * Real.sin t, Real.cos θ⟩) = 0 := by
        intro t
        rw [indicator_of_notMem, mul_zero]
        rw [mem_ofPred_eq, lin_dot_n hfr]
        exact not_lt.mpr h4
      simp only [this, lintegral_zero]
    · rw [indicator_of_notMem h2]

theorem solidAngle_unit : ∀ᵐ d ∂solidAngle, V3.dot d d = 1 := by
  unfold solidAngle
  refine Measure.ae_smul_measure ?_ _
  have hms : MeasurableSet {d : V3 ℝ | V3.dot d d = 1} := measurableSet_eq_fun measurable_dot measurable_const
  rw [ae_map_iff measurable_dirOf.aemeasurable hms]
  refine (ae_restrict_iff' measurableSet_ball).mpr (Filter.Eventually.of_forall fun p hp => ?_)
  have h : 0 < V3.dot p p := hp.1
  unfold dirOf
  rw [V3.dot_smul_left, V3.dot_smul_right, ← mul_assoc, div_mul_div_comm, Real.mul_self_sqrt h.le]
  field_simp

/-- The reported density in terms of the half vector. -/
theorem glossyPdf_half {ax ay : ℝ} (hax : 0 < ax) (hay : 0 < ay) {g : Geom} {wi w n u v : V3 ℝ} (hi : V3.dot wi wi = 1) (hb : basisTwosided g wi = (n, u, v)) (hwi : 0 < V3.dot wi n)
    (hside : (n = g.n ∧ u = g.u ∧ v = g.v ∧ 0 < V3.dot wi g.n) ∨ (n = -g.n ∧ u = g.u ∧ v = -g.v ∧ V3.dot wi g.n < 0)) (hw1 : V3.dot w w = 1) (ho : opposite g wi w = false) :
    0 < V3.dot w n ∧ |V3.dot w g.n| = V3.dot w n ∧ 0 < V3.dot (dirOf (wi + w)) wi ∧
      glossyPdf ax ay g wi w = some (ggxD ax ay u v n (dirOf (wi + w)) * V3.dot (dirOf (wi + w)) n / (4 * V3.dot (dirOf (wi + w)) wi * V3.dot w n)) := by
  have hwn : 0 < V3.dot w n := (side_of g wi _ n u v hside).mp ((opposite_iff _ _ _).mp ho)
  have hsn : 0 < V3.dot (wi + w) n := by rw [V3.dot_add_left]; linarith
  have hsp : 0 < V3.dot (wi + w) (wi + w) := dot_pos_of_ne (n := n) (by rw [V3.dot_comm]; exact hsn.ne')
  have hnm : Material.normalize (wi + w) = some (dirOf (wi + w)) := by
    unfold Material.normalize; rw [if_neg hsp.ne']; rfl
  have hnd : normalDist ax ay (dirOf (wi + w)) u v n = some (ggxD ax ay u v n (dirOf (wi + w))) := by
    unfold normalDist divF ggxD
    rw [if_neg]
    have hk : 0 < V3.dot (dirOf (wi + w)) n := by
      simp only [dirOf, V3.dot_smul_left]
      have := Real.sqrt_pos.mpr hsp
      positivity
    have := Real.pi_pos
    positivity
  have hk : 0 < V3.dot (dirOf (wi + w)) n := by
    simp only [dirOf, V3.dot_smul_left]
    have := Real.sqrt_pos.mpr hsp
    positivity
  have heq : V3.dot w (dirOf (wi + w)) = V3.dot (dirOf (wi + w)) wi := by
    simp only [dirOf, V3.dot_smul_left, V3.dot_smul_right, V3.dot_add_left, V3.dot_add_right, hi, hw1, V3.dot_comm w wi]; ring
  have hpos : 0 < V3.dot (dirOf (wi + w)) wi := by
    have : V3.dot (wi + w) (wi + w) = 2 * V3.dot (wi + w) wi := by
      simp only [V3.dot_add_left, V3.dot_add_right, hi, hw1, V3.dot_comm w wi]; ring
    simp only [dirOf, V3.dot_smul_left]
    have := Real.sqrt_pos.mpr hsp
    have : 0 < V3.dot (wi + w) wi := by linarith
    positivity
  have habs : |V3.dot w g.n| = V3.dot w n := by
    rcases hside with ⟨rfl, _⟩ | ⟨hn, _⟩
    · exact abs_of_pos hwn
    · have : V3.dot w g.n = - V3.dot w n := by rw [hn, V3.dot_neg_right, neg_neg]
      rw [this, abs_neg, abs_of_pos hwn]
  have hpdf : glossyPdf ax ay g wi w = some (ggxD ax ay u v n (dirOf (wi + w)) * V3.dot (dirOf (wi + w)) n / (4 * V3.dot (dirOf (wi + w)) wi * V3.dot w n)) := by
    unfold glossyPdf
    rw [if_neg (by rw [ho]; simp), hb]
    simp only [hnm, hnd, divF, heq]
    rw [if_neg (by positivity)]
  exact ⟨hwn, habs, hpos, hpdf⟩

theorem glossy_free (Ks : V3 ℝ) (ax ay : ℝ) (hax : 0 < ax) (hay : 0 < ay) (comp : Nat) (g : Geom) (wi : V3 ℝ) (h : OnSurface g) (hi : V3.dot wi wi = 1) (hw : V3.dot wi g.n ≠ 0) :
    FreeDensity (glossy Ks ax ay) comp g wi := by
  refine ⟨fun _ _ _ => rfl, fun dir => ?_⟩
  obtain ⟨n, u, v, hb, hon, hwi, hside⟩ := twosided g wi h hw
  have hF := frame_of hon
  set wh : ℝ × ℝ → V3 ℝ := fun q => dirOf (planePt (ax • u) (ay • v) n (slope q)) with hwh
  have hwhm : Measurable wh := measurable_dirOf.comp ((measurable_planePt _ _ _).comp measurable_slope)
  have hrm : Measurable fun d : V3 ℝ => reflection wi d := by
    have hd : Measurable fun d : V3 ℝ => V3.dot wi d := by simp_rw [V3.dot_comm wi]; exact measurable_dotc wi
    unfold reflection
    exact measurable_mk (((hd.const_mul 2).mul measurable_x).sub_const _) (((hd.const_mul 2).mul measurable_y).sub_const _) (((hd.const_mul 2).mul measurable_z).sub_const _)
  have hWm : Measurable fun q => reflection wi (wh q) := hrm.comp hwhm
  have hO := opposite_measurable g wi
  set O := {d : V3 ℝ | opposite g wi d = false} with hOdef
  have hPn : ∀ q, V3.dot (planePt (ax • u) (ay • v) n q) n = 1 := by
    intro q
    simp only [planePt, V3.dot_add_left, V3.dot_smul_left, hF.nn, hF.un, hF.vn]; ring
  have hPpos : ∀ q, 0 < V3.dot (planePt (ax • u) (ay • v) n q) (planePt (ax • u) (ay • v) n q) := fun q => dot_pos_of_ne (n := n) (by rw [V3.dot_comm, hPn]; exact one_ne_zero)
  have hunit : ∀ p : V3 ℝ, 0 < V3.dot p p → V3.dot (dirOf p) (dirOf p) = 1 := by
    intro p hp
    unfold dirOf
    rw [V3.dot_smul_left, V3.dot_smul_right, ← mul_assoc, div_mul_div_comm, Real.mul_self_sqrt hp.le]
    field_simp
  have hnorm : ∀ q : ℝ × ℝ, normalize (safeSqrt (q.2 / (1 - q.2)) • ((ax * Real.cos (q.1 * 2 * π)) • u + (ay * Real.sin (q.1 * 2 * π)) • v) + n) = some (wh q) := by
    intro q
    have e : safeSqrt (q.2 / (1 - q.2)) • ((ax * Real.cos (q.1 * 2 * π)) • u + (ay * Real.sin (q.1 * 2 * π)) • v) + n = planePt (ax • u) (ay • v) n (slope q) := by
      ext <;> simp [planePt, slope] <;> ring
    rw [e]
    unfold Material.normalize
    rw [if_neg (hPpos _).ne']
    rfl
  have hwu : ∀ q, V3.dot (wh q) (wh q) = 1 := fun q => hunit _ (hPpos _)
  have hsample : ∀ q : ℝ × ℝ, (glossy Ks ax ay).sampleDirection ⟨q.1, q.2, 0⟩ g wi comp dir =
      if opposite g wi (reflection wi (wh q)) = true then .fail else weightOf (reflection wi (wh q)) (glossyEval Ks ax ay g wi (reflection wi (wh q))) (glossyPdf ax ay g wi (reflection wi (wh q))) := by
    intro q
    have := hnorm q
    simp only [glossy, hb, this]
  refine hasDensity_of {q | reflection wi (wh q) ∈ O} (fun q => reflection wi (wh q)) (hWm hO) hWm ?_ ?_ ?_
  · have hhm : Measurable fun w : V3 ℝ => dirOf (wi + w) := by
      refine measurable_dirOf.comp (measurable_mk (f := fun w => wi + w) ?_ ?_ ?_)
      · exact measurable_x.const_add _
      · exact measurable_y.const_add _
      · exact measurable_z.const_add _
    refine ⟨O.indicator fun w => ENNReal.ofReal (ggxD ax ay u v n (dirOf (wi + w)) * V3.dot (dirOf (wi + w)) n / (4 * V3.dot (dirOf (wi + w)) wi * V3.dot w n)), Measurable.indicator (Measurable.ennreal_ofReal ?_) hO, ?_⟩
    · exact (((measurable_ggxD ax ay u v n).comp hhm).mul ((measurable_dotc n).comp hhm)).div ((((measurable_dotc wi).comp hhm).const_mul 4).mul (measurable_dotc n))
    · refine (withDensity_absolutelyContinuous solidAngle _).ae_le (solidAngle_unit.mono fun w hw1 => ?_)
      simp only [glossy]
      by_cases ho : opposite g wi w = true
      · rw [indicator_of_notMem (by rw [hOdef, mem_ofPred_eq, ho]; simp)]
        simp [glossyPdf, ho, dens]
      · rw [Bool.not_eq_true] at ho
        rw [indicator_of_mem (show w ∈ O from ho), (glossyPdf_half hax hay hi hb hwi hside hw1 ho).2.2.2]
        rfl
  · intro A
    ext q
    simp only [event, mem_ofPred_eq, mem_inter_iff, mem_preimage, hsample, hOdef]
    set wo := reflection wi (wh q) with hwo
    by_cases hop : opposite g wi wo = true
    · rw [if_pos hop]
      constructor
      · rintro ⟨_, _, he, _⟩; cases he
      · rintro ⟨he, _⟩; rw [hop] at he; cases he
    · rw [if_neg hop]
      rw [Bool.not_eq_true] at hop
      have hs := (opposite_iff _ _ _).mp hop
      have hou := (C33_reflection wi _ (hwu q)).1
      rw [hi] at hou
      obtain ⟨⟨p, hp, hp0⟩, f, hf⟩ := glossy_defined Ks ax ay hax hay g wi _ h hi hou hs
      obtain ⟨C, hC, _⟩ := weightOf_ok wo f p hp0
      rw [hf, hp, hC]
      constructor
      · rintro ⟨_, _, he, hA⟩
        obtain ⟨rfl, rfl⟩ := DirRes.ok.inj he
        exact ⟨hop, hA⟩
      · rintro ⟨_, hA⟩; exact ⟨_, _, rfl, hA⟩
  · intro A hA
    have hAO : MeasurableSet (O ∩ A) := hO.inter hA
    -- the numbers that yield a direction in A, as an integral over half vectors
    have h1 : ∫⁻ q in {q : ℝ × ℝ | reflection wi (wh q) ∈ O}, A.indicator (1 : V3 ℝ → ℝ≥0∞) (reflection wi (wh q)) ∂uniform2 =
        ∫⁻ q : ℝ × ℝ, (O ∩ A).indicator 1 (reflection wi (wh q)) ∂uniform2 := by
      have hSm : MeasurableSet {q : ℝ × ℝ | reflection wi (wh q) ∈ O} := hWm hO
      rw [← lintegral_indicator hSm]
      refine lintegral_congr fun q => ?_
      by_cases ho : reflection wi (wh q) ∈ O
      · rw [indicator_of_mem (show q ∈ {q : ℝ × ℝ | reflection wi (wh q) ∈ O} from ho)]
        by_cases ha : reflection wi (wh q) ∈ A
        · rw [indicator_of_mem ha, indicator_of_mem (show _ ∈ O ∩ A from ⟨ho, ha⟩)]
        · rw [indicator_of_notMem ha, indicator_of_notMem (fun hc => ha hc.2)]
      · rw [indicator_of_notMem (show q ∉ {q : ℝ × ℝ | reflection wi (wh q) ∈ O} from ho), indicator_of_notMem (fun hc => ho hc.1)]
    have hm1 : Measurable ((O ∩ A).indicator (1 : V3 ℝ → ℝ≥0∞)) := measurable_one.indicator hAO
    rw [h1]
    rw [law_half hax hay hon (F := fun d => (O ∩ A).indicator 1 (reflection wi d)) (hm1.comp hrm)]
    -- as an integral over reflected directions
    set hd : V3 ℝ → V3 ℝ := fun w => dirOf (wi + w) with hhd
    have hhm : Measurable hd := by
      refine measurable_dirOf.comp (measurable_mk (f := fun w => wi + w) ?_ ?_ ?_)
      · exact measurable_x.const_add _
      · exact measurable_y.const_add _
      · exact measurable_z.const_add _
    set G : V3 ℝ → ℝ≥0∞ := fun w => (O ∩ A).indicator 1 w * ENNReal.ofReal (ggxD ax ay u v n (hd w) * V3.dot (hd w) n / (4 * V3.dot (hd w) wi)) with hG
    have hGm : Measurable G := by
      refine hm1.mul (Measurable.ennreal_ofReal ?_)
      exact (((measurable_ggxD ax ay u v n).comp hhm).mul ((measurable_dotc n).comp hhm)).div (((measurable_dotc wi).comp hhm).const_mul 4)
    have key : ∫⁻ d in {d | 0 < V3.dot d n}, ENNReal.ofReal (ggxD ax ay u v n d * V3.dot d n) * (O ∩ A).indicator 1 (reflection wi d) ∂solidAngle =
        ∫⁻ d in {d | 0 < V3.dot d wi}, ENNReal.ofReal (4 * V3.dot d wi) * G (reflection wi d) ∂solidAngle := by
      rw [← lintegral_indicator (measurableSet_lt measurable_const (measurable_dotc n)), ← lintegral_indicator (measurableSet_lt measurable_const (measurable_dotc wi))]
      refine lintegral_congr_ae (solidAngle_unit.mono fun d hd1 => ?_)
      by_cases hin : reflection wi d ∈ O ∩ A
      · have hno : 0 < V3.dot (reflection wi d) n := (side_of g wi _ n u v hside).mp ((opposite_iff _ _ _).mp hin.1)
        have hsum : wi + reflection wi d = (2 * V3.dot wi d) • d := by
          unfold reflection; ext <;> simp only [V3.add_x, V3.add_y, V3.add_z, V3.sub_x, V3.sub_y, V3.sub_z, V3.smul_x, V3.smul_y, V3.smul_z] <;> ring
        have hprod : 0 < 2 * V3.dot wi d * V3.dot d n := by
          have : V3.dot (wi + reflection wi d) n = 2 * V3.dot wi d * V3.dot d n := by rw [hsum, V3.dot_smul_left]
          rw [← this, V3.dot_add_left]; linarith
        by_cases hdn : 0 < V3.dot d n
        · have hdw : 0 < V3.dot d wi := by
            rw [V3.dot_comm]; by_contra hc; nlinarith
          rw [indicator_of_mem (show d ∈ {d | 0 < V3.dot d n} from hdn), indicator_of_mem (show d ∈ {d | 0 < V3.dot d wi} from hdw)]
          have hdd : hd (reflection wi d) = d := by
            rw [hhd]
            simp only
            rw [hsum]
            unfold dirOf
            have h2 : 0 < 2 * V3.dot wi d := by rw [V3.dot_comm]; linarith
            rw [V3.dot_smul_left, V3.dot_smul_right, hd1, mul_one, Real.sqrt_mul_self h2.le]
            ext <;> simp only [V3.smul_x, V3.smul_y, V3.smul_z] <;> rw [← mul_assoc, one_div, inv_mul_cancel₀ h2.ne', one_mul]
          rw [hG]
          simp only
          rw [hdd, indicator_of_mem hin, Pi.one_apply, mul_one, one_mul, ← ENNReal.ofReal_mul (by positivity)]
          congr 1
          field_simp
        · have hdw : ¬ 0 < V3.dot d wi := by
            intro hc
            rw [V3.dot_comm] at hc
            nlinarith
          rw [indicator_of_notMem (show d ∉ {d | 0 < V3.dot d n} from hdn), indicator_of_notMem (show d ∉ {d | 0 < V3.dot d wi} from hdw)]
      · have z1 : ∀ S : Set (V3 ℝ), S.indicator (fun d => ENNReal.ofReal (ggxD ax ay u v n d * V3.dot d n) * (O ∩ A).indicator 1 (reflection wi d)) d = 0 := by
          intro S
          by_cases hs : d ∈ S
          · rw [indicator_of_mem hs, indicator_of_notMem hin, mul_zero]
          · rw [indicator_of_notMem hs]
        have z2 : ∀ S : Set (V3 ℝ), S.indicator (fun d => ENNReal.ofReal (4 * V3.dot d wi) * G (reflection wi d)) d = 0 := by
          intro S
          by_cases hs : d ∈ S
          · rw [indicator_of_mem hs, hG]
            simp only
            rw [indicator_of_notMem hin, zero_mul, mul_zero]
          · rw [indicator_of_notMem hs]
        rw [z1, z2]
    rw [key, law_reflection hi hGm, lintegral_projSA hA, ← lintegral_indicator hA]
    refine lintegral_congr_ae (solidAngle_unit.mono fun w hw1 => ?_)
    simp only [hG, glossy]
    by_cases ha : w ∈ A
    · rw [indicator_of_mem ha]
      by_cases ho : opposite g wi w = true
      · rw [indicator_of_notMem (fun hc => by have := hc.1; rw [hOdef, mem_ofPred_eq, ho] at this; cases this)]
        simp [glossyPdf, ho, dens]
      · rw [Bool.not_eq_true] at ho
        rw [indicator_of_mem (show w ∈ O ∩ A from ⟨ho, ha⟩)]
        obtain ⟨hwn, habs, hpos, hpdf⟩ := glossyPdf_half hax hay hi hb hwi hside hw1 ho
        rw [show hd w = dirOf (wi + w) from rfl, hpdf, habs]
        simp only [dens, Pi.one_apply, one_mul]
        rw [← ENNReal.ofReal_mul hwn.le]
        congr 1
        field_simp
    · rw [indicator_of_notMem ha, indicator_of_notMem (fun hc => ha hc.2), zero_mul]

/-- C80. Glossy (GGX) materials sample directions with the density they report; a sample that would leave on the other side counts as no sample. -/
theorem C80_glossy (Ks : V3 ℝ) (ax ay : ℝ) (hax : 0 < ax) (hay : 0 < ay) (comp : Nat) (g : Geom) (wi : V3 ℝ) (h : OnSurface g) (hi : V3.dot wi wi = 1) (hw : V3.dot wi g.n ≠ 0) :
    MaterialDensity (glossy Ks ax ay) comp g wi := materialDensity_of_free (glossy_free Ks ax ay hax hay comp g wi h hi hw)

example : MaterialDensity (glossy ⟨1, 1, 1⟩ (1 / 2) (1 / 4)) 0 exGeom ⟨0, 0, 1⟩ :=
  C80_glossy _ _ _ (by norm_num) (by norm_num) _ _ _ (by simp [OnSurface, MathF.Orthonormal, exGeom, V3.dot, V3.cross]) (by simp [V3.dot]) (by simp [exGeom, V3.dot])

end LM.Solid
