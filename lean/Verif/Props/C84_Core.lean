import Verif.Spec.SolidAngle
import Mathlib.MeasureTheory.Integral.IntervalIntegral.AbsolutelyContinuousFun
import Mathlib.MeasureTheory.Integral.Prod
import Mathlib.MeasureTheory.Function.Jacobian
import Mathlib.MeasureTheory.Function.JacobianOneDim
import Mathlib.Analysis.SpecialFunctions.Exponential
import Mathlib.Analysis.SpecialFunctions.ExpDeriv
import Mathlib.Analysis.SpecialFunctions.Log.Basic
import Mathlib.Tactic.FieldSimp
/-
  The mathematics of tracking in media: the exponential law and the series of null collisions.
-/
namespace LM.Tracking
open MeasureTheory LM LM.Solid Set
open scoped ENNReal Topology Interval

/-- The distance -log(1-u)/M ahead of t has the exponential law. -/
theorem exp_law (M t : ℝ) (hM : 0 < M) (F : ℝ → ℝ≥0∞) :
    ∫⁻ u, F (t - Real.log (1 - u) * (1 / M)) ∂uniform1 = ∫⁻ s in Ici t, ENNReal.ofReal (M * Real.exp (-M * (s - t))) * F s := by
  have himg : (fun s => 1 - Real.exp (-M * (s - t))) '' Ici t = Ico 0 1 := by
    ext u
    constructor
    · rintro ⟨s, hs, rfl⟩
      have h1 : Real.exp (-M * (s - t)) ≤ 1 := Real.exp_le_one_iff.mpr (by nlinarith [mem_Ici.mp hs])
      exact ⟨by linarith, by linarith [Real.exp_pos (-M * (s - t))]⟩
    · rintro ⟨h0, h1⟩
      refine ⟨t - Real.log (1 - u) * (1 / M), ?_, ?_⟩
      · have := Real.log_nonpos (by linarith : 0 ≤ 1 - u) (by linarith)
        have : 0 ≤ -Real.log (1 - u) * (1 / M) := mul_nonneg (by linarith) (by positivity)
        exact mem_Ici.mpr (by linarith)
      · have : -M * (t - Real.log (1 - u) * (1 / M) - t) = Real.log (1 - u) := by field_simp; ring
        simp only [this, Real.exp_log (by linarith : 0 < 1 - u)]
        ring
  have hinj : InjOn (fun s => 1 - Real.exp (-M * (s - t))) (Ici t) := by
    intro a _ b _ h
    have h' : Real.exp (-M * (a - t)) = Real.exp (-M * (b - t)) := by simpa using h
    have := Real.exp_injective h'
    nlinarith
  have hder : ∀ s ∈ Ici t, HasDerivWithinAt (fun s => 1 - Real.exp (-M * (s - t))) (M * Real.exp (-M * (s - t))) (Ici t) s := by
    intro s _
    have h1 : HasDerivAt (fun s : ℝ => -M * (s - t)) (-M * 1) s := ((hasDerivAt_id s).sub_const t).const_mul (-M)
    have h2 := (h1.exp).const_sub 1
    have h3 : M * Real.exp (-M * (s - t)) = -(Real.exp (-M * (s - t)) * (-M * 1)) := by ring
    rw [h3]; exact h2.hasDerivWithinAt
  unfold uniform1
  rw [← himg, lintegral_image_eq_lintegral_abs_deriv_mul measurableSet_Ici hder hinj]
  refine setLIntegral_congr_fun measurableSet_Ici fun s hs => ?_
  have e : t - Real.log (1 - (1 - Real.exp (-M * (s - t)))) * (1 / M) = s := by
    rw [sub_sub_cancel, Real.log_exp]; field_simp; ring
  simp only [e]
  rw [abs_of_pos (by positivity)]

/-- Mass of the exponential law beyond c. -/
theorem exp_tail (M t c : ℝ) (hM : 0 < M) : ∫⁻ s in Ici c, ENNReal.ofReal (M * Real.exp (-M * (s - t))) = ENNReal.ofReal (Real.exp (-M * (c - t))) := by
  have h1 := exp_law M c hM (fun _ => 1)
  simp only [mul_one, lintegral_const, one_mul] at h1
  have hu : uniform1 univ = 1 := by unfold uniform1; simp
  rw [hu] at h1
  have e : ∀ s, ENNReal.ofReal (M * Real.exp (-M * (s - t))) = ENNReal.ofReal (Real.exp (-M * (c - t))) * ENNReal.ofReal (M * Real.exp (-M * (s - c))) := by
    intro s
    rw [← ENNReal.ofReal_mul (Real.exp_pos _).le]
    congr 1
    rw [mul_left_comm, ← Real.exp_add]
    congr 2; ring
  simp_rw [e]
  rw [lintegral_const_mul' _ _ ENNReal.ofReal_ne_top, ← h1, mul_one]

/-! ### The series of null collisions -/

/-- The first n terms of the exponential series. -/
noncomputable def P (n : ℕ) (x : ℝ) : ℝ := ∑ k ∈ Finset.range n, x ^ k / k.factorial

theorem P_nonneg (n : ℕ) (x : ℝ) (hx : 0 ≤ x) : 0 ≤ P n x := Finset.sum_nonneg fun _ _ => by positivity
theorem P_mono (x : ℝ) (hx : 0 ≤ x) : Monotone fun n => P n x := by
  refine monotone_nat_of_le_succ fun n => ?_
  unfold P
  rw [Finset.sum_range_succ]
  have : 0 ≤ x ^ n / n.factorial := by positivity
  linarith
theorem P_tendsto (x : ℝ) : Filter.Tendsto (fun n => P n x) Filter.atTop (𝓝 (Real.exp x)) := by
  have := (NormedSpace.expSeries_div_hasSum_exp x).tendsto_sum_nat
  rwa [← congrFun Real.exp_eq_exp_ℝ x] at this
theorem P_cont (n : ℕ) : Continuous (P n) := by unfold P; fun_prop

/-- A density of null collisions: measurable and between 0 and M. -/
structure Rate (M : ℝ) (ν : ℝ → ℝ) : Prop where
  meas : Measurable ν
  nonneg : ∀ s, 0 ≤ ν s
  le : ∀ s, ν s ≤ M

theorem Rate.ii {M : ℝ} {ν : ℝ → ℝ} (h : Rate M ν) (a b : ℝ) : IntervalIntegrable ν volume a b := by
  refine (intervalIntegrable_const (c := M)).mono_fun h.meas.aestronglyMeasurable (Filter.Eventually.of_forall fun s => ?_)
  simp only [Real.norm_eq_abs]
  rw [abs_of_nonneg (h.nonneg s), abs_of_nonneg ((h.nonneg s).trans (h.le s))]
  exact h.le s

theorem ac_pow {f : ℝ → ℝ} {a b : ℝ} (hf : AbsolutelyContinuousOnInterval f a b) : ∀ n : ℕ, AbsolutelyContinuousOnInterval (fun x => f x ^ (n + 1)) a b
  | 0 => by simpa using hf
  | n + 1 => by
    have := (ac_pow hf n).fun_mul hf
    simpa only [← pow_succ] using this

/-- ∫ ν(r) N(r)^k dr = N^(k+1)/(k+1), with N(r) the integral of ν from r on. -/
theorem null_step {M : ℝ} {ν : ℝ → ℝ} (h : Rate M ν) (a b : ℝ) (k : ℕ) :
    ∫ r in a..b, ν r * (∫ x in r..b, ν x) ^ k = (∫ x in a..b, ν x) ^ (k + 1) / (k + 1) := by
  have hac : AbsolutelyContinuousOnInterval (fun r => ∫ x in b..r, ν x) a b := (h.ii a b).absolutelyContinuousOnInterval_intervalIntegral (c := b) (by simp)
  have hG := (ac_pow hac k).integral_deriv_eq_sub
  have hd := (h.ii a b).ae_hasDerivAt_integral
  have e : ∫ r in a..b, deriv (fun x => (∫ y in b..x, ν y) ^ (k + 1)) r = ∫ r in a..b, (k + 1) * (-1) ^ k * (ν r * (∫ x in r..b, ν x) ^ k) := by
    refine intervalIntegral.integral_congr_ae ?_
    filter_upwards [hd] with r hr hr'
    have h1 := (hr (uIoc_subset_uIcc hr') b (by simp)).fun_pow (k + 1)
    rw [h1.deriv]
    rw [intervalIntegral.integral_symm r b]
    simp only [Nat.add_sub_cancel, Nat.cast_add, Nat.cast_one]
    rw [neg_pow]
    ring
  rw [e, intervalIntegral.integral_const_mul, intervalIntegral.integral_same, intervalIntegral.integral_symm a b] at hG
  rw [zero_pow (by omega), neg_pow (∫ x in a..b, ν x), zero_sub] at hG
  have h1 : ((-1 : ℝ) ^ k) * (-1) ^ k = 1 := by rw [← mul_pow]; norm_num
  have hk : (0 : ℝ) < k + 1 := by positivity
  rw [eq_div_iff hk.ne']
  have hG' : ((k : ℝ) + 1) * (-1) ^ k * (∫ r in a..b, ν r * (∫ x in r..b, ν x) ^ k) = (-1) ^ k * (∫ x in a..b, ν x) ^ (k + 1) := by
    rw [hG, pow_succ (-1 : ℝ) k]; ring
  calc _ = ((-1 : ℝ) ^ k * (-1) ^ k) * ((k + 1) * ∫ r in a..b, ν r * (∫ x in r..b, ν x) ^ k) := by rw [h1]; ring
    _ = (-1 : ℝ) ^ k * (((k : ℝ) + 1) * (-1) ^ k * (∫ r in a..b, ν r * (∫ x in r..b, ν x) ^ k)) := by ring
    _ = _ := by rw [hG', ← mul_assoc, h1, one_mul]

theorem N_cont {M : ℝ} {ν : ℝ → ℝ} (h : Rate M ν) : Continuous fun q : ℝ × ℝ => ∫ x in q.1..q.2, ν x := by
  have e : (fun q : ℝ × ℝ => ∫ x in q.1..q.2, ν x) = fun q => (∫ x in (0:ℝ)..q.2, ν x) - ∫ x in (0:ℝ)..q.1, ν x := by
    ext q
    rw [intervalIntegral.integral_interval_sub_left (h.ii _ _) (h.ii _ _)]
  rw [e]
  have c := intervalIntegral.continuous_primitive (fun a b => h.ii a b) 0
  exact (c.comp continuous_snd).sub (c.comp continuous_fst)

theorem N_nonneg {M : ℝ} {ν : ℝ → ℝ} (h : Rate M ν) {a b : ℝ} (hab : a ≤ b) : 0 ≤ ∫ x in a..b, ν x :=
  intervalIntegral.integral_nonneg hab fun s _ => h.nonneg s

theorem null_series {M : ℝ} {ν : ℝ → ℝ} (h : Rate M ν) (a b : ℝ) (n : ℕ) :
    1 + ∫ r in a..b, ν r * P n (∫ x in r..b, ν x) = P (n + 1) (∫ x in a..b, ν x) := by
  have hc : Continuous fun r => ∫ x in r..b, ν x := (N_cont h).comp (by fun_prop : Continuous fun r : ℝ => (r, b))
  have e : ∀ r, ν r * P n (∫ x in r..b, ν x) = ∑ k ∈ Finset.range n, (ν r * (∫ x in r..b, ν x) ^ k) * (k.factorial : ℝ)⁻¹ := by
    intro r
    unfold P
    rw [Finset.mul_sum]
    exact Finset.sum_congr rfl fun k _ => by rw [div_eq_mul_inv, mul_assoc]
  simp_rw [e]
  rw [intervalIntegral.integral_finsetSum fun k _ => ((h.ii a b).mul_continuousOn (g := fun r => (∫ x in r..b, ν x) ^ k) (hc.pow k).continuousOn).mul_const (k.factorial : ℝ)⁻¹]
  simp_rw [intervalIntegral.integral_mul_const, null_step h]
  unfold P
  rw [Finset.sum_range_succ' _ n]
  simp only [pow_zero, Nat.factorial_zero, Nat.cast_one, div_one]
  rw [add_comm]
  congr 1
  refine Finset.sum_congr rfl fun k _ => ?_
  rw [Nat.factorial_succ]
  push_cast
  have : (0:ℝ) < k.factorial := by positivity
  field_simp

/-- The same in the form the tracking loops produce it. -/
theorem null_lintegral {M : ℝ} {ν : ℝ → ℝ} (h : Rate M ν) (a b : ℝ) (hab : a ≤ b) (n : ℕ) :
    (∫⁻ r in Ico a b, ENNReal.ofReal (ν r * P n (∫ x in r..b, ν x))) + 1 = ENNReal.ofReal (P (n + 1) (∫ x in a..b, ν x)) := by
  have hc : Continuous fun r => ∫ x in r..b, ν x := (N_cont h).comp (by fun_prop : Continuous fun r : ℝ => (r, b))
  have hii : IntervalIntegrable (fun r => ν r * P n (∫ x in r..b, ν x)) volume a b := (h.ii a b).mul_continuousOn ((P_cont n).comp hc).continuousOn
  rw [← null_series h, ENNReal.ofReal_add (zero_le_one (α := ℝ)), ENNReal.ofReal_one, add_comm]
  · congr 1
    rw [intervalIntegral.integral_of_le hab]
    rw [ofReal_integral_eq_lintegral_ofReal]
    · exact setLIntegral_congr (Ico_ae_eq_Ioc (μ := volume) (a := a) (b := b))
    · exact (intervalIntegrable_iff_integrableOn_Ioc_of_le hab).mp hii
    · refine (ae_restrict_iff' measurableSet_Ioc).mpr (Filter.Eventually.of_forall fun r hr => ?_)
      exact mul_nonneg (h.nonneg r) (P_nonneg _ _ (N_nonneg h hr.2))
  · exact intervalIntegral.integral_nonneg hab fun r hr => mul_nonneg (h.nonneg r) (P_nonneg _ _ (N_nonneg h hr.2))

/-- Exchange of the two integrals over the triangle t ≤ r ≤ s < c. -/
theorem triangle_swap (t c : ℝ) (G : ℝ → ℝ → ℝ≥0∞) (hG : Measurable fun q : ℝ × ℝ => G q.1 q.2) :
    ∫⁻ r in Ico t c, ∫⁻ s in Ico r c, G r s = ∫⁻ s in Ico t c, ∫⁻ r in Ico t s, G r s := by
  have h1 : ∀ r ∈ Ico t c, ∫⁻ s in Ico r c, G r s = ∫⁻ s in Ico t c, {q : ℝ × ℝ | q.1 ≤ q.2}.indicator (fun q => G q.1 q.2) (r, s) := by
    intro r hr
    have e : ∀ s, {q : ℝ × ℝ | q.1 ≤ q.2}.indicator (fun q => G q.1 q.2) (r, s) = (Ici r).indicator (G r) s := by
      intro s
      by_cases h : r ≤ s
      · rw [indicator_of_mem (by exact h), indicator_of_mem (by exact h)]
      · rw [indicator_of_notMem (by exact h), indicator_of_notMem (by exact h)]
    simp_rw [e]
    rw [setLIntegral_indicator measurableSet_Ici]
    congr 2
    ext s
    simp only [mem_Ico, mem_inter_iff, mem_Ici]
    constructor
    · rintro ⟨a, b⟩; exact ⟨a, hr.1.trans a, b⟩
    · rintro ⟨a, _, b⟩; exact ⟨a, b⟩
  rw [setLIntegral_congr_fun measurableSet_Ico h1]
  rw [lintegral_lintegral_swap]
  · refine setLIntegral_congr_fun measurableSet_Ico fun s hs => ?_
    have e : ∀ r, {q : ℝ × ℝ | q.1 ≤ q.2}.indicator (fun q => G q.1 q.2) (r, s) = (Iic s).indicator (fun r => G r s) r := by
      intro r
      by_cases h : r ≤ s
      · rw [indicator_of_mem (by exact h), indicator_of_mem (by exact h)]
      · rw [indicator_of_notMem (by exact h), indicator_of_notMem (by exact h)]
    simp only [e]
    rw [setLIntegral_indicator measurableSet_Iic]
    have : Iic s ∩ Ico t c = Icc t s := by
      ext r
      simp only [mem_Ico, mem_inter_iff, mem_Iic, mem_Icc]
      constructor
      · rintro ⟨a, b, _⟩; exact ⟨b, a⟩
      · rintro ⟨a, b⟩; exact ⟨b, a, b.trans_lt hs.2⟩
    rw [this]
    exact setLIntegral_congr (Ico_ae_eq_Icc (μ := volume) (a := t) (b := s)).symm
  · exact (hG.indicator (measurableSet_le measurable_fst measurable_snd)).aemeasurable

/-- The value of a tracking loop after at most k tentative collisions. -/
noncomputable def series (M c : ℝ) (σ : ℝ → ℝ) (w : ℝ≥0∞) (X : ℝ → ℝ≥0∞) (k : ℕ) (t : ℝ) : ℝ≥0∞ :=
  ENNReal.ofReal (Real.exp (-M * (c - t)) * P k (∫ x in t..c, (M - σ x))) * w +
    ∫⁻ s in Ico t c, ENNReal.ofReal (σ s * Real.exp (-M * (s - t)) * P k (∫ x in t..s, (M - σ x))) * X s

theorem Rate.compl {M : ℝ} {σ : ℝ → ℝ} (h : Rate M σ) : Rate M fun s => M - σ s :=
  ⟨measurable_const.sub h.meas, fun s => sub_nonneg.mpr (h.le s), fun s => sub_le_self _ (h.nonneg s)⟩

theorem loop_series {M c : ℝ} {σ : ℝ → ℝ} (hM : 0 < M) (h : Rate M σ) (w : ℝ≥0∞) (X : ℝ → ℝ≥0∞) (hX : Measurable X) (V : ℕ → ℝ → ℝ≥0∞) (h0 : ∀ t, V 0 t = 0)
    (hs : ∀ k t, V (k + 1) t = ∫⁻ u, (if t - Real.log (1 - u) * (1 / M) ≥ c then w else
      ENNReal.ofReal (σ (t - Real.log (1 - u) * (1 / M)) / M) * X (t - Real.log (1 - u) * (1 / M)) +
      ENNReal.ofReal (1 - σ (t - Real.log (1 - u) * (1 / M)) / M) * V k (t - Real.log (1 - u) * (1 / M))) ∂uniform1) (k : ℕ) :
    ∀ t, t ≤ c → V k t = series M c σ w X k t := by
  have hν := h.compl
  have hN := N_cont hν
  have hσ := h.meas
  induction k with
  | zero => intro t _; rw [h0]; simp [series, P]
  | succ k ih =>
    intro t ht
    rw [hs, exp_law M t hM (fun s => if s ≥ c then w else ENNReal.ofReal (σ s / M) * X s + ENNReal.ofReal (1 - σ s / M) * V k s)]
    rw [← Ico_union_Ici_eq_Ici ht, lintegral_union measurableSet_Ici (by rw [disjoint_left]; rintro s hs hs'; exact absurd hs.2 (not_lt.mpr hs'))]
    have e2 : ∫⁻ s in Ici c, ENNReal.ofReal (M * Real.exp (-M * (s - t))) * (if s ≥ c then w else ENNReal.ofReal (σ s / M) * X s + ENNReal.ofReal (1 - σ s / M) * V k s) =
        ENNReal.ofReal (Real.exp (-M * (c - t))) * w := by
      rw [← exp_tail M t c hM, ← lintegral_mul_const _ (by fun_prop)]
      exact setLIntegral_congr_fun measurableSet_Ici fun s hs => by rw [if_pos (mem_Ici.mp hs)]
    have e1 : ∀ s ∈ Ico t c, ENNReal.ofReal (M * Real.exp (-M * (s - t))) * (if s ≥ c then w else ENNReal.ofReal (σ s / M) * X s + ENNReal.ofReal (1 - σ s / M) * V k s) =
        ENNReal.ofReal (σ s * Real.exp (-M * (s - t))) * X s + (ENNReal.ofReal (Real.exp (-M * (c - t))) * w * ENNReal.ofReal ((M - σ s) * P k (∫ x in s..c, (M - σ x))) +
          ∫⁻ s' in Ico s c, ENNReal.ofReal ((M - σ s) * P k (∫ x in s..s', (M - σ x))) * (ENNReal.ofReal (σ s' * Real.exp (-M * (s' - t))) * X s')) := by
      intro s hs
      rw [if_neg (not_le.mpr hs.2), ih s hs.2.le, series, mul_add, mul_add, mul_add]
      have a1 : 0 ≤ M * Real.exp (-M * (s - t)) := by positivity
      have a2 : 0 ≤ M - σ s := sub_nonneg.mpr (h.le s)
      have a3 : 1 - σ s / M = (M - σ s) / M := by field_simp
      have a4 : 0 ≤ (M - σ s) / M := div_nonneg a2 hM.le
      rw [a3]
      congr 1
      · rw [← mul_assoc, ← ENNReal.ofReal_mul a1]
        congr 2; field_simp
      congr 1
      · rw [← mul_assoc, ← mul_assoc, ← ENNReal.ofReal_mul a1, ← ENNReal.ofReal_mul (mul_nonneg a1 a4), mul_right_comm (ENNReal.ofReal (Real.exp (-M * (c - t)))), ← ENNReal.ofReal_mul (Real.exp_pos _).le]
        congr 2
        have : Real.exp (-M * (c - t)) = Real.exp (-M * (s - t)) * Real.exp (-M * (c - s)) := by rw [← Real.exp_add]; congr 1; ring
        rw [this]; field_simp
      · rw [← mul_assoc, ← ENNReal.ofReal_mul a1, ← lintegral_const_mul' _ _ ENNReal.ofReal_ne_top]
        refine setLIntegral_congr_fun measurableSet_Ico fun s' hs' => ?_
        have b1 : 0 ≤ P k (∫ x in s..s', (M - σ x)) := P_nonneg _ _ (N_nonneg hν hs'.1)
        rw [← mul_assoc, ← mul_assoc, ← ENNReal.ofReal_mul (mul_nonneg a1 a4), ← ENNReal.ofReal_mul (mul_nonneg a2 b1)]
        congr 2
        have : Real.exp (-M * (s' - t)) = Real.exp (-M * (s - t)) * Real.exp (-M * (s' - s)) := by rw [← Real.exp_add]; congr 1; ring
        rw [this]; field_simp
    rw [e2, setLIntegral_congr_fun measurableSet_Ico e1]
    have mN : Measurable fun q : ℝ × ℝ => ∫ x in q.1..q.2, (M - σ x) := hN.measurable
    have mP : Measurable fun q : ℝ × ℝ => P k (∫ x in q.1..q.2, (M - σ x)) := ((P_cont k).comp (N_cont hν)).measurable
    have mPc : Measurable fun s : ℝ => P k (∫ x in s..c, (M - σ x)) := ((P_cont k).comp ((N_cont hν).comp (by fun_prop : Continuous fun s : ℝ => (s, c)))).measurable
    have m1 : Measurable fun s => ENNReal.ofReal (σ s * Real.exp (-M * (s - t))) * X s := by fun_prop
    have m2 : Measurable fun s => ENNReal.ofReal ((M - σ s) * P k (∫ x in s..c, (M - σ x))) := Measurable.ennreal_ofReal (Measurable.mul (measurable_const.sub hσ) mPc)
    have m3 : Measurable fun q : ℝ × ℝ => ENNReal.ofReal ((M - σ q.1) * P k (∫ x in q.1..q.2, (M - σ x))) * (ENNReal.ofReal (σ q.2 * Real.exp (-M * (q.2 - t))) * X q.2) :=
      Measurable.mul (Measurable.ennreal_ofReal (Measurable.mul (measurable_const.sub (hσ.comp measurable_fst)) mP)) (m1.comp measurable_snd)
    rw [lintegral_add_left m1, lintegral_add_left (m2.const_mul _), lintegral_const_mul _ m2]
    rw [triangle_swap t c (fun r s => ENNReal.ofReal ((M - σ r) * P k (∫ x in r..s, (M - σ x))) * (ENNReal.ofReal (σ s * Real.exp (-M * (s - t))) * X s)) m3]
    have e3 : ∀ s ∈ Ico t c, ENNReal.ofReal (σ s * Real.exp (-M * (s - t)) * P (k + 1) (∫ x in t..s, (M - σ x))) * X s =
        ENNReal.ofReal (σ s * Real.exp (-M * (s - t))) * X s + ∫⁻ r in Ico t s, ENNReal.ofReal ((M - σ r) * P k (∫ x in r..s, (M - σ x))) * (ENNReal.ofReal (σ s * Real.exp (-M * (s - t))) * X s) := by
      intro s hs
      have mPs : Measurable fun r : ℝ => P k (∫ x in r..s, (M - σ x)) := ((P_cont k).comp ((N_cont hν).comp (by fun_prop : Continuous fun r : ℝ => (r, s)))).measurable
      have mQ : Measurable fun r => ENNReal.ofReal ((M - σ r) * P k (∫ x in r..s, (M - σ x))) := Measurable.ennreal_ofReal (Measurable.mul (measurable_const.sub hσ) mPs)
      rw [ENNReal.ofReal_mul (mul_nonneg (h.nonneg s) (Real.exp_pos _).le), ← null_lintegral hν t s hs.1 k, lintegral_mul_const _ mQ]
      ring
    have e4 : ENNReal.ofReal (Real.exp (-M * (c - t)) * P (k + 1) (∫ x in t..c, (M - σ x))) * w =
        ENNReal.ofReal (Real.exp (-M * (c - t))) * w * (∫⁻ s in Ico t c, ENNReal.ofReal ((M - σ s) * P k (∫ x in s..c, (M - σ x)))) + ENNReal.ofReal (Real.exp (-M * (c - t))) * w := by
      rw [ENNReal.ofReal_mul (Real.exp_pos _).le, ← null_lintegral hν t c ht k]
      ring
    rw [series, e4, setLIntegral_congr_fun measurableSet_Ico e3, lintegral_add_left m1]
    ring

/-- The limit: collisions at s with the density of the first collision in the medium σ, none with the transmittance. -/
noncomputable def limit (c : ℝ) (σ : ℝ → ℝ) (w : ℝ≥0∞) (X : ℝ → ℝ≥0∞) (t : ℝ) : ℝ≥0∞ :=
  ENNReal.ofReal (Real.exp (-∫ x in t..c, σ x)) * w + ∫⁻ s in Ico t c, ENNReal.ofReal (σ s * Real.exp (-∫ x in t..s, σ x)) * X s

theorem series_tendsto {M c : ℝ} {σ : ℝ → ℝ} (h : Rate M σ) (w : ℝ≥0∞) (X : ℝ → ℝ≥0∞) (hX : Measurable X) (t : ℝ) :
    Filter.Tendsto (fun k => series M c σ w X k t) Filter.atTop (𝓝 (limit c σ w X t)) := by
  have hν := h.compl
  have hσ := h.meas
  have ex : ∀ b, Real.exp (-M * (b - t)) * Real.exp (∫ x in t..b, (M - σ x)) = Real.exp (-∫ x in t..b, σ x) := by
    intro b
    rw [← Real.exp_add, intervalIntegral.integral_sub intervalIntegrable_const (h.ii _ _), intervalIntegral.integral_const]
    congr 1
    simp only [smul_eq_mul]; ring
  refine Filter.Tendsto.add ?_ ?_
  · refine ENNReal.Tendsto.mul_const ?_ (.inl (by simp [Real.exp_pos]))
    rw [← ex]
    exact ENNReal.tendsto_ofReal ((P_tendsto _).const_mul _)
  · refine lintegral_tendsto_of_tendsto_of_monotone ?_ ?_ ?_
    · intro k
      have mP : Measurable fun s : ℝ => P k (∫ x in t..s, (M - σ x)) := ((P_cont k).comp ((N_cont hν).comp (by fun_prop : Continuous fun s : ℝ => (t, s)))).measurable
      exact (Measurable.mul (Measurable.ennreal_ofReal (Measurable.mul (by fun_prop) mP)) hX).aemeasurable
    · refine (ae_restrict_iff' measurableSet_Ico).mpr (Filter.Eventually.of_forall fun s hs => ?_)
      intro a b hab
      have := P_mono _ (N_nonneg hν hs.1) hab
      exact mul_le_mul_left (ENNReal.ofReal_le_ofReal (mul_le_mul_of_nonneg_left this (mul_nonneg (h.nonneg s) (Real.exp_pos _).le))) _
    · refine (ae_restrict_iff' measurableSet_Ico).mpr (Filter.Eventually.of_forall fun s hs => ?_)
      rcases eq_or_lt_of_le (h.nonneg s) with h0 | h0
      · simp [← h0]
      · refine ENNReal.Tendsto.mul_const ?_ (.inl (by simp [h0, Real.exp_pos]))
        rw [← ex, ← mul_assoc]
        exact ENNReal.tendsto_ofReal ((P_tendsto _).const_mul _)

end LM.Tracking
