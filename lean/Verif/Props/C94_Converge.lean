import Verif.Props.C94_Bounds
import Mathlib.MeasureTheory.Integral.IntervalIntegral.FundThmCalculus
import Mathlib.MeasureTheory.Integral.IntervalIntegral.IntegrationByParts
/-
  C94: the values of the volume ray casting renderer approach the single scattering integral as the steps become small.
-/
namespace LM.VolRaycast
open LM LM.Surface LM.Material LM.Light LM.Path LM.Render LM.Accel Finset MeasureTheory
open scoped Interval

/-! ### Specification -/

/-- The length of a vector. -/
noncomputable def len (v : V3 ℝ) : ℝ := Real.sqrt (V3.dot v v)

/-- The optical depth of the whole ray from o in direction d, per unit of extinction. -/
noncomputable def depth (ρ : V3 ℝ → ℝ) (o d : V3 ℝ) : ℝ := ∫ t in Set.Ici Eps, ρ (o + t • d)

/-- The single scattering integral: at each point of the ray, scattering × density × light arriving there (unshadowed light times exp of minus the optical depth towards the light), attenuated on the way to o. -/
noncomputable def single (c : Cfg) (ρ : V3 ℝ → ℝ) (o d : V3 ℝ) (i : Fin 3) : ℝ :=
  ∫ t in Set.Ici Eps, ch c.muS i * ρ (o + t • d) * (ch c.Le i * Real.exp (-(ch c.muT i * depth ρ (o + t • d) c.lightDir))) * Real.exp (-(ch c.muT i * ∫ u in Eps..t, ρ (o + u • d)))

/-- The march with the given step visits one point in each of consecutive cells of that length, the cells have length D at most together, and the density is zero on the rest of the ray. -/
def Covers (g : Grid) (ρ : V3 ℝ → ℝ) (D step : ℝ) : Prop :=
  ∀ o d, V3.dot d d = 1 → ∃ ts a, g.march o d Eps Surface.Inf step = some ts ∧ Eps ≤ a ∧ (∀ (k : ℕ) t, ts[k]? = some t → a + k * step ≤ t ∧ t ≤ a + (k + 1) * step) ∧ ts.length * step ≤ D ∧
    ∀ t, Eps ≤ t → t ∉ Set.Icc a (a + ts.length * step) → ρ (o + t • d) = 0

/-- The density changes by at most K per unit of length. -/
def Smooth (ρ : V3 ℝ → ℝ) (K : ℝ) : Prop := ∀ p q, |ρ p - ρ q| ≤ K * len (p - q)

/-! ### Sums and integrals on a line -/

theorem exp_neg_lip {x y : ℝ} (hx : 0 ≤ x) (hy : 0 ≤ y) : |Real.exp (-x) - Real.exp (-y)| ≤ |x - y| := by
  wlog h : x ≤ y generalizing x y
  · rw [abs_sub_comm, abs_sub_comm x]
    exact this hy hx (le_of_not_ge h)
  have h1 : Real.exp (-y) ≤ Real.exp (-x) := Real.exp_le_exp.mpr (by linarith)
  rw [abs_of_nonneg (by linarith), abs_of_nonpos (by linarith)]
  have h2 : Real.exp (-y) = Real.exp (-x) * Real.exp (x - y) := by rw [← Real.exp_add]; ring_nf
  have h3 : x - y + 1 ≤ Real.exp (x - y) := Real.add_one_le_exp _
  have h4 : Real.exp (-x) ≤ 1 := Real.exp_le_one_iff.mpr (by linarith)
  have h5 : Real.exp (x - y) ≤ 1 := Real.exp_le_one_iff.mpr (by linarith)
  rw [h2]
  nlinarith [Real.exp_pos (-x)]

/-- On one cell, a function times a nonnegative weight. -/
theorem cell (s w : ℝ → ℝ) (hs : Continuous s) (hw : Continuous w) (hw0 : ∀ t, 0 ≤ w t) {K a b x : ℝ} (hK : 0 ≤ K) (hab : a ≤ b) (hx : x ∈ Set.Icc a b) (hl : ∀ t u, |s t - s u| ≤ K * |t - u|) :
    |s x * (∫ t in a..b, w t) - ∫ t in a..b, s t * w t| ≤ K * (b - a) * ∫ t in a..b, w t := by
  have hsw : Continuous fun t => s t * w t := hs.mul hw
  have hxw : Continuous fun t => s x * w t := hw.const_mul _
  rw [← intervalIntegral.integral_const_mul, ← intervalIntegral.integral_sub (hxw.intervalIntegrable _ _) (hsw.intervalIntegrable _ _), ← intervalIntegral.integral_const_mul]
  refine (intervalIntegral.abs_integral_le_integral_abs hab).trans ?_
  refine intervalIntegral.integral_mono_on hab ?_ ((hw.const_mul _).intervalIntegrable _ _) fun t ht => ?_
  · exact ((hxw.sub hsw).abs).intervalIntegrable _ _
  · rw [← sub_mul, abs_mul, abs_of_nonneg (hw0 t)]
    refine mul_le_mul_of_nonneg_right ((hl x t).trans (mul_le_mul_of_nonneg_left ?_ hK)) (hw0 t)
    rw [abs_le]
    constructor <;> linarith [hx.1, hx.2, ht.1, ht.2]

theorem sum_cells (w : ℝ → ℝ) (hw : Continuous w) (a h : ℝ) (m : ℕ) : ∫ t in a..(a + m * h), w t = ∑ k ∈ range m, ∫ t in (a + k * h)..(a + (k + 1) * h), w t := by
  induction m with
  | zero => simp
  | succ m ih =>
    rw [Finset.sum_range_succ, ← ih, intervalIntegral.integral_add_adjacent_intervals (hw.intervalIntegrable _ _) (hw.intervalIntegrable _ _)]
    push_cast
    rfl

theorem sum_weighted (s w : ℝ → ℝ) (hs : Continuous s) (hw : Continuous w) (hw0 : ∀ t, 0 ≤ w t) {K a h : ℝ} (hK : 0 ≤ K) (hh : 0 ≤ h) (hl : ∀ t u, |s t - s u| ≤ K * |t - u|) (x : ℕ → ℝ) (m : ℕ)
    (hx : ∀ k, k < m → a + k * h ≤ x k ∧ x k ≤ a + (k + 1) * h) :
    |∑ k ∈ range m, s (x k) * (∫ t in (a + k * h)..(a + (k + 1) * h), w t) - ∫ t in a..(a + m * h), s t * w t| ≤ K * h * ∫ t in a..(a + m * h), w t := by
  rw [sum_cells (fun t => s t * w t) (hs.mul hw), sum_cells _ hw, ← Finset.sum_sub_distrib, Finset.mul_sum]
  refine (Finset.abs_sum_le_sum_abs _ _).trans (Finset.sum_le_sum fun k hk => ?_)
  have := cell s w hs hw hw0 hK (a := a + k * h) (b := a + (k + 1) * h) (by nlinarith) (hx k (Finset.mem_range.mp hk)) hl
  rwa [show a + (k + 1) * h - (a + k * h) = h by ring] at this

/-- The sum of the densities times the step against the integral of the density. -/
theorem riemann (f : ℝ → ℝ) (hf : Continuous f) {K a h : ℝ} (hK : 0 ≤ K) (hh : 0 ≤ h) (hl : ∀ t u, |f t - f u| ≤ K * |t - u|) (x : ℕ → ℝ) (m : ℕ) (hx : ∀ k, k < m → a + k * h ≤ x k ∧ x k ≤ a + (k + 1) * h) :
    |h * ∑ k ∈ range m, f (x k) - ∫ t in a..(a + m * h), f t| ≤ K * h * (m * h) := by
  have := sum_weighted f (fun _ => 1) hf continuous_const (fun _ => zero_le_one) hK hh hl x m hx
  simp only [intervalIntegral.integral_const, smul_eq_mul, mul_one] at this
  rw [show a + m * h - a = m * h by ring] at this
  rw [Finset.mul_sum]
  refine le_trans (le_of_eq ?_) this
  congr 2
  exact Finset.sum_congr rfl fun k _ => by ring

/-- Summation by parts against small errors. -/
theorem abel (s x : ℕ → ℝ) {η δ : ℝ} (hη : 0 ≤ η) (n : ℕ) (hs1 : |s n| ≤ 1) (hs : ∀ k, k < n → |s k - s (k + 1)| ≤ η) (hx0 : x 0 = 0) (hx : ∀ k, k ≤ n → |x k| ≤ δ) :
    |∑ k ∈ range n, s k * (x (k + 1) - x k)| ≤ δ * (1 + n * η) := by
  have key : ∀ m, m ≤ n → |∑ k ∈ range m, s k * (x (k + 1) - x k) - s m * x m| ≤ m * η * δ := by
    intro m
    induction m with
    | zero => intro _; simp [hx0]
    | succ m ih =>
      intro hm
      have e : ∑ k ∈ range (m + 1), s k * (x (k + 1) - x k) - s (m + 1) * x (m + 1) = (∑ k ∈ range m, s k * (x (k + 1) - x k) - s m * x m) + (s m - s (m + 1)) * x (m + 1) := by
        rw [Finset.sum_range_succ]; ring
      rw [e]
      refine (abs_add_le _ _).trans ?_
      rw [abs_mul]
      have h1 := ih (by omega)
      have h2 := mul_le_mul (hs m (by omega)) (hx (m + 1) hm) (abs_nonneg _) hη
      push_cast
      linarith
  have h1 := key n le_rfl
  have h2 : |s n * x n| ≤ δ := by
    rw [abs_mul]
    have := mul_le_mul hs1 (hx n le_rfl) (abs_nonneg _) zero_le_one
    linarith
  have h3 := abs_add_le (∑ k ∈ range n, s k * (x (k + 1) - x k) - s n * x n) (s n * x n)
  rw [sub_add_cancel] at h3
  linarith

/-- One ray: the sum over the steps against the integral, for a light s arriving along the ray that is known up to ε. -/
theorem line (f s : ℝ → ℝ) (hf0 : ∀ t, 0 ≤ f t) {mu K Ks ε a h D : ℝ} (hmu : 0 ≤ mu) (hK : 0 ≤ K) (hKs : 0 ≤ Ks) (hh : 0 ≤ h) (hfc : Continuous f) (hsc : Continuous s)
    (hfl : ∀ t u, |f t - f u| ≤ K * |t - u|) (hsl : ∀ t u, |s t - s u| ≤ Ks * |t - u|) (hs1 : ∀ t, |s t| ≤ 1) (x : ℕ → ℝ) (n : ℕ) (hx : ∀ k, a + k * h ≤ x k ∧ x k ≤ a + (k + 1) * h) (hD : n * h ≤ D)
    (S : ℕ → ℝ) (hS : ∀ k, k < n → |S k - s (x k)| ≤ ε) (hε : 0 ≤ ε) :
    |∑ k ∈ range n, S k * (trans mu h (fun j => f (x j)) k - trans mu h (fun j => f (x j)) (k + 1)) - ∫ t in a..(a + n * h), s t * (mu * f t * Real.exp (-(mu * ∫ u in a..t, f u)))| ≤
      ε + mu * K * D * h * (1 + 2 * Ks * D) + Ks * h := by
  set T' : ℕ → ℝ := trans mu h fun j => f (x j) with hT'
  set F : ℝ → ℝ := fun t => ∫ u in a..t, f u with hF
  have hFd : ∀ t, HasDerivAt F (f t) t := fun t => intervalIntegral.integral_hasDerivAt_right (hfc.intervalIntegrable _ _) (hfc.stronglyMeasurableAtFilter _ _) hfc.continuousAt
  have hFc : Continuous F := continuous_iff_continuousAt.mpr fun t => (hFd t).continuousAt
  set w : ℝ → ℝ := fun t => mu * f t * Real.exp (-(mu * F t)) with hw
  have hwc : Continuous w := (hfc.const_mul mu).mul (Real.continuous_exp.comp (hFc.const_mul mu).neg)
  have hw0 : ∀ t, 0 ≤ w t := fun t => mul_nonneg (mul_nonneg hmu (hf0 t)) (Real.exp_pos _).le
  have hFI : ∀ p q, ∫ t in p..q, w t = Real.exp (-(mu * F p)) - Real.exp (-(mu * F q)) := by
    intro p q
    have hd : ∀ t ∈ [[p, q]], HasDerivAt (fun t => -Real.exp (-(mu * F t))) (w t) t := by
      intro t _
      have := (((hFd t).const_mul mu).neg.exp).neg
      exact this.congr_deriv (by simp only [hw, Pi.neg_apply]; ring)
    rw [intervalIntegral.integral_eq_sub_of_hasDerivAt hd (hwc.intervalIntegrable _ _)]
    ring
  have hFmono : ∀ k : ℕ, 0 ≤ F (a + k * h) := fun k => intervalIntegral.integral_nonneg (by nlinarith [Nat.cast_nonneg (α := ℝ) k]) fun t _ => hf0 t
  have hD0 : 0 ≤ D := le_trans (mul_nonneg (Nat.cast_nonneg _) hh) hD
  -- the sum with the true light
  have hT'anti : ∀ k, 0 ≤ T' k - T' (k + 1) := fun k => trans_drop hmu hh (n := k + 1) (fun j _ => hf0 _) (Nat.lt_succ_self k)
  have e1 : |∑ k ∈ range n, S k * (T' k - T' (k + 1)) - ∑ k ∈ range n, s (x k) * (T' k - T' (k + 1))| ≤ ε := by
    rw [← Finset.sum_sub_distrib]
    calc |∑ k ∈ range n, (S k * (T' k - T' (k + 1)) - s (x k) * (T' k - T' (k + 1)))| ≤ ∑ k ∈ range n, ε * (T' k - T' (k + 1)) := by
          refine (Finset.abs_sum_le_sum_abs _ _).trans (Finset.sum_le_sum fun k hk => ?_)
          rw [← sub_mul, abs_mul, abs_of_nonneg (hT'anti k)]
          exact mul_le_mul_of_nonneg_right (hS k (Finset.mem_range.mp hk)) (hT'anti k)
      _ = ε * (1 - T' n) := by rw [← Finset.mul_sum, Finset.sum_range_sub', hT', trans_zero]
      _ ≤ ε := mul_le_of_le_one_right hε (by linarith [trans_pos mu h (fun j => f (x j)) n])
  -- the transmittances
  set T : ℕ → ℝ := fun k => Real.exp (-(mu * F (a + k * h))) with hT
  have hTk : ∀ k : ℕ, k ≤ n → |T k - T' k| ≤ mu * K * D * h := by
    intro k hk
    have hr := riemann f hfc (a := a) hK hh hfl x k fun j _ => hx j
    have h1 := exp_neg_lip (x := mu * F (a + k * h)) (y := mu * (h * ∑ j ∈ range k, f (x j))) (mul_nonneg hmu (hFmono k)) (mul_nonneg hmu (mul_nonneg hh (Finset.sum_nonneg fun j _ => hf0 _)))
    refine h1.trans ?_
    rw [← mul_sub, abs_mul, abs_of_nonneg hmu, abs_sub_comm]
    have hkD : (k : ℝ) * h ≤ D := le_trans (mul_le_mul_of_nonneg_right (Nat.cast_le.mpr hk) hh) hD
    calc mu * |h * ∑ j ∈ range k, f (x j) - F (a + k * h)| ≤ mu * (K * h * (k * h)) := mul_le_mul_of_nonneg_left hr hmu
      _ ≤ mu * (K * h * D) := mul_le_mul_of_nonneg_left (mul_le_mul_of_nonneg_left hkD (mul_nonneg hK hh)) hmu
      _ = mu * K * D * h := by ring
  have e2 : |∑ k ∈ range n, s (x k) * (T' k - T' (k + 1)) - ∑ k ∈ range n, s (x k) * (T k - T (k + 1))| ≤ mu * K * D * h * (1 + 2 * Ks * D) := by
    have hδ : 0 ≤ mu * K * D * h := mul_nonneg (mul_nonneg (mul_nonneg hmu hK) hD0) hh
    have hab := abel (fun k => s (x k)) (fun k => T k - T' k) (η := Ks * (2 * h)) (δ := mu * K * D * h) (mul_nonneg hKs (by linarith)) n (hs1 _) (fun k _ => ?_) ?_ hTk
    · have e : ∑ k ∈ range n, s (x k) * (T' k - T' (k + 1)) - ∑ k ∈ range n, s (x k) * (T k - T (k + 1)) = ∑ k ∈ range n, s (x k) * (T (k + 1) - T' (k + 1) - (T k - T' k)) := by
        rw [← Finset.sum_sub_distrib]
        exact Finset.sum_congr rfl fun k _ => by ring
      rw [e]
      refine hab.trans (mul_le_mul_of_nonneg_left ?_ hδ)
      nlinarith [mul_le_mul_of_nonneg_left hD hKs]
    · refine (hsl _ _).trans (mul_le_mul_of_nonneg_left ?_ hKs)
      have h1 := hx k
      have h2 := hx (k + 1)
      push_cast at h2
      rw [abs_le]
      constructor <;> nlinarith [h1.1, h1.2, h2.1, h2.2]
    · simp [hT, hT', trans_zero, hF]
  -- the integral
  have e3 : |∑ k ∈ range n, s (x k) * (T k - T (k + 1)) - ∫ t in a..(a + n * h), s t * w t| ≤ Ks * h := by
    have := sum_weighted s w hsc hwc hw0 hKs hh hsl x n fun k _ => hx k
    simp only [hFI] at this
    have hFa : F a = 0 := by simp [hF]
    have hle : Real.exp (-(mu * F a)) - Real.exp (-(mu * F (a + n * h))) ≤ 1 := by
      rw [hFa]
      simp
      exact (Real.exp_pos _).le
    refine le_trans (le_of_eq ?_) (this.trans (mul_le_of_le_one_right (mul_nonneg hKs hh) hle))
    congr 2
    refine Finset.sum_congr rfl fun k _ => ?_
    simp only [hT]
    push_cast
    rfl
  have t1 := abs_sub_le (∑ k ∈ range n, S k * (T' k - T' (k + 1))) (∑ k ∈ range n, s (x k) * (T' k - T' (k + 1))) (∫ t in a..(a + n * h), s t * w t)
  have t2 := abs_sub_le (∑ k ∈ range n, s (x k) * (T' k - T' (k + 1))) (∑ k ∈ range n, s (x k) * (T k - T (k + 1))) (∫ t in a..(a + n * h), s t * w t)
  linarith

/-! ### Rays -/

theorem len_smul {d : V3 ℝ} (hd : V3.dot d d = 1) (o : V3 ℝ) (t u : ℝ) : len (o + t • d - (o + u • d)) = |t - u| := by
  have : V3.dot (o + t • d - (o + u • d)) (o + t • d - (o + u • d)) = (t - u) ^ 2 * V3.dot d d := by
    simp only [V3.dot, V3.sub_x, V3.sub_y, V3.sub_z, V3.add_x, V3.add_y, V3.add_z, V3.smul_x, V3.smul_y, V3.smul_z]
    ring
  rw [len, this, hd, mul_one, Real.sqrt_sq_eq_abs]

theorem len_nonneg (v : V3 ℝ) : 0 ≤ len v := Real.sqrt_nonneg _

theorem cont_of_lip {f : ℝ → ℝ} {K : ℝ} (hK : 0 ≤ K) (hl : ∀ t u, |f t - f u| ≤ K * |t - u|) : Continuous f :=
  (LipschitzWith.of_dist_le_mul (K := ⟨K, hK⟩) fun t u => by rw [Real.dist_eq, Real.dist_eq]; exact hl t u).continuous

theorem Smooth.ray {ρ : V3 ℝ → ℝ} {K : ℝ} (h : Smooth ρ K) (o : V3 ℝ) {d : V3 ℝ} (hd : V3.dot d d = 1) (t u : ℝ) : |ρ (o + t • d) - ρ (o + u • d)| ≤ K * |t - u| := by
  have := h (o + t • d) (o + u • d)
  rwa [len_smul hd] at this

theorem int_Ici {f : ℝ → ℝ} {a b : ℝ} (ha : Eps ≤ a) (hab : a ≤ b) (hz : ∀ t, Eps ≤ t → t ∉ Set.Icc a b → f t = 0) : ∫ t in Set.Ici Eps, f t = ∫ t in a..b, f t := by
  rw [intervalIntegral.integral_of_le hab, ← integral_Icc_eq_integral_Ioc]
  exact setIntegral_eq_of_subset_of_forall_diff_eq_zero measurableSet_Ici (fun t ht => ha.trans ht.1) fun t ht => hz t ht.1 ht.2

theorem int_before {f : ℝ → ℝ} (hf : Continuous f) {a b : ℝ} (ha : Eps ≤ a) (hz : ∀ t, Eps ≤ t → t ∉ Set.Icc a b → f t = 0) (t : ℝ) : ∫ u in Eps..t, f u = ∫ u in a..t, f u := by
  rw [← intervalIntegral.integral_add_adjacent_intervals (hf.intervalIntegrable Eps a) (hf.intervalIntegrable a t), intervalIntegral.integral_of_le ha, integral_Ioc_eq_integral_Ioo,
    setIntegral_eq_zero_of_forall_eq_zero, zero_add]
  intro u hu
  exact hz u hu.1.le fun h => absurd h.1 (not_le.mpr hu.2)

/-- The optical depth towards the light changes by at most 2 D K per unit of length. -/
theorem depth_lip {g : Grid} {ρ : V3 ℝ → ℝ} {D K h : ℝ} (hK : 0 ≤ K) (hh : 0 ≤ h) (hρ : Smooth ρ K) (hc : Covers g ρ D h) {l : V3 ℝ} (hl : V3.dot l l = 1) (p q : V3 ℝ) :
    |depth ρ p l - depth ρ q l| ≤ 2 * D * K * len (p - q) := by
  obtain ⟨ts, a, _, ha, _, hD, hz⟩ := hc p l hl
  obtain ⟨ts', a', _, ha', _, hD', hz'⟩ := hc q l hl
  have hb : a ≤ a + ts.length * h := le_add_of_nonneg_right (mul_nonneg (Nat.cast_nonneg _) hh)
  have hb' : a' ≤ a' + ts'.length * h := le_add_of_nonneg_right (mul_nonneg (Nat.cast_nonneg _) hh)
  have hcp : Continuous fun t : ℝ => ρ (p + t • l) := cont_of_lip hK (hρ.ray p hl)
  have hcq : Continuous fun t : ℝ => ρ (q + t • l) := cont_of_lip hK (hρ.ray q hl)
  set I := Set.Icc a (a + ts.length * h)
  set I' := Set.Icc a' (a' + ts'.length * h)
  have hip : IntegrableOn (fun t : ℝ => ρ (p + t • l)) (Set.Ici Eps) :=
    (hcp.continuousOn.integrableOn_compact isCompact_Icc).of_forall_diff_eq_zero (s := I) measurableSet_Ici fun t ht => hz t ht.1 ht.2
  have hiq : IntegrableOn (fun t : ℝ => ρ (q + t • l)) (Set.Ici Eps) :=
    (hcq.continuousOn.integrableOn_compact isCompact_Icc).of_forall_diff_eq_zero (s := I') measurableSet_Ici fun t ht => hz' t ht.1 ht.2
  unfold depth
  rw [← integral_sub hip hiq, setIntegral_eq_of_subset_of_forall_diff_eq_zero (s := I ∪ I') measurableSet_Ici ?_ ?_]
  · have hfin : volume (I ∪ I') < ⊤ := lt_of_le_of_lt (measure_union_le _ _) (ENNReal.add_lt_top.mpr ⟨measure_Icc_lt_top, measure_Icc_lt_top⟩)
    have hb1 := norm_setIntegral_le_of_norm_le_const (μ := volume) (s := I ∪ I') (f := fun t : ℝ => ρ (p + t • l) - ρ (q + t • l)) (C := K * len (p - q)) hfin fun t _ => by
      have := hρ (p + t • l) (q + t • l)
      rwa [show p + t • l - (q + t • l) = p - q by ext <;> simp] at this
    have hv : volume.real (I ∪ I') ≤ 2 * D := by
      refine (measureReal_union_le I I').trans ?_
      rw [Real.volume_real_Icc_of_le hb, Real.volume_real_Icc_of_le hb']
      linarith
    rw [Real.norm_eq_abs] at hb1
    refine hb1.trans ?_
    have := mul_le_mul_of_nonneg_left hv (mul_nonneg hK (len_nonneg (p - q)))
    linarith
  · rintro t (ht | ht)
    · exact ha.trans ht.1
    · exact ha'.trans ht.1
  · rintro t ⟨ht, hn⟩
    rw [hz t ht fun h => hn (.inl h), hz' t ht fun h => hn (.inr h), sub_zero]

theorem depth_nonneg {ρ : V3 ℝ → ℝ} (h0 : ∀ p, 0 ≤ ρ p) (p l : V3 ℝ) : 0 ≤ depth ρ p l := integral_nonneg fun _ => h0 _

/-- The points of a march, continued. -/
noncomputable def pts (ts : List ℝ) (a h : ℝ) (k : ℕ) : ℝ := match ts[k]? with
  | some t => t
  | none => a + k * h

theorem pts_cell {ts : List ℝ} {a h : ℝ} (hh : 0 ≤ h) (hx : ∀ (k : ℕ) t, ts[k]? = some t → a + k * h ≤ t ∧ t ≤ a + (k + 1) * h) (k : ℕ) : a + k * h ≤ pts ts a h k ∧ pts ts a h k ≤ a + (k + 1) * h := by
  unfold pts
  cases e : ts[k]? with
  | some t => exact hx k t e
  | none => exact ⟨le_rfl, by dsimp only; nlinarith⟩

theorem pts_some {ts : List ℝ} {a h t : ℝ} {k : ℕ} (e : ts[k]? = some t) : pts ts a h k = t := by rw [pts, e]

/-- The light that the march finds to arrive, against exp of minus the optical depth. -/
theorem lit_depth {c : Cfg} {g : Grid} {ρ : V3 ℝ → ℝ} {D K : ℝ} (hP : Physical c g) (hg : ∀ p, g.scalar p = some (ρ p)) (hK : 0 ≤ K) (hρ : Smooth ρ K) (hc : Covers g ρ D c.stepShadow) (hl : V3.dot c.lightDir c.lightDir = 1)
    {p : V3 ℝ} {S : Fin 3 → ℝ} (h : Lit { c with cutoff := 0 } g p S) (i : Fin 3) : |S i - Real.exp (-(ch c.muT i * depth ρ p c.lightDir))| ≤ ch c.muT i * K * D * c.stepShadow := by
  have h0 : ∀ p, 0 ≤ ρ p := fun p => hP.density p _ (hg p)
  obtain ⟨ts, ρ', n, h1, h2, h3, h4⟩ := h
  obtain rfl := h3.full le_rfl
  obtain ⟨ts', a, h1', ha, hx, hD, hz⟩ := hc p c.lightDir hl
  obtain rfl : ts = ts' := Option.some.inj (h1.symm.trans h1')
  have hh := hP.stepShadow
  have hlip := hρ.ray p hl
  have hcont : Continuous fun t : ℝ => ρ (p + t • c.lightDir) := cont_of_lip hK hlip
  have hr := riemann (fun t => ρ (p + t • c.lightDir)) hcont (a := a) hK hh hlip (pts ts a c.stepShadow) ts.length fun k _ => pts_cell hh hx k
  have hdep : depth ρ p c.lightDir = ∫ t in a..(a + ts.length * c.stepShadow), ρ (p + t • c.lightDir) := int_Ici ha (le_add_of_nonneg_right (mul_nonneg (Nat.cast_nonneg _) hh)) hz
  rw [← hdep] at hr
  have hS : S i = Real.exp (-(ch c.muT i * (c.stepShadow * ∑ k ∈ range ts.length, ρ (p + pts ts a c.stepShadow k • c.lightDir)))) := by
    rw [h4, trans_congr (ρ' := fun k => ρ (p + pts ts a c.stepShadow k • c.lightDir))]
    · rfl
    · intro k hk
      obtain ⟨t, e1, e2⟩ := h2 k hk
      rw [pts_some e1]
      exact Option.some.inj (e2.symm.trans (hg _))
  rw [hS]
  have hmu := (hP.extinct i).le
  refine (exp_neg_lip (mul_nonneg hmu (mul_nonneg hh (Finset.sum_nonneg fun k _ => h0 _))) (mul_nonneg hmu (depth_nonneg h0 _ _))).trans ?_
  rw [← mul_sub, abs_mul, abs_of_nonneg hmu]
  have h5 := mul_le_mul_of_nonneg_left hr hmu
  have h6 := mul_le_mul_of_nonneg_left (mul_le_mul_of_nonneg_left hD (mul_nonneg hK hh)) hmu
  linarith

/-! ### Theorem -/

/-- C94. For a density that is not negative and changes by at most K per unit of length, on marches that cover the volume, a value differs from the single scattering integral by at most the emitted light times the albedo times
    an explicit multiple of the two steps plus the root of the cutoff: it converges as steps and cutoff become small. -/
theorem C94_converges (c : Cfg) (g : Grid) (hP : Physical c g) (ρ : V3 ℝ → ℝ) (hg : ∀ p, g.scalar p = some (ρ p)) (hm : ∀ o d a b s, (g.march o d a b s).isSome) (D K : ℝ) (hK : 0 ≤ K) (hρ : Smooth ρ K)
    (hc : Covers g ρ D c.step) (hcs : Covers g ρ D c.stepShadow) (hl : V3.dot c.lightDir c.lightDir = 1) (o d L : V3 ℝ) (hd : V3.dot d d = 1) (h : Estimate c g o d L) (i : Fin 3) :
    |ch L i - single c ρ o d i| ≤ ch c.muS i / ch c.muT i * ch c.Le i *
      (ch c.muT i * K * D * (c.stepShadow + c.step * (3 + 4 * ch c.muT i * K * D ^ 2)) + Real.sqrt c.cutoff) := by
  have h0 : ∀ p, 0 ≤ ρ p := fun p => hP.density p _ (hg p)
  obtain ⟨L', hL'⟩ := radiance_returns { c with cutoff := 0 } g (fun p => by rw [hg]; rfl) hm (fun i => (hP.extinct i).ne') o d
  have h' := radiance_estimate hL'
  have hcut := C94_cutoff c g hP o d L L' h h' i
  obtain ⟨ts, ρ', n, S, h1, h2, h3, h4⟩ := h'
  obtain rfl := h3.full le_rfl
  obtain ⟨ts', a, h1', ha, hx, hD, hz⟩ := hc o d hd
  obtain rfl : ts = ts' := Option.some.inj (h1.symm.trans h1')
  have hh := hP.step
  have hmu := hP.extinct i
  have hD0 : 0 ≤ D := le_trans (mul_nonneg (Nat.cast_nonneg _) hh) hD
  have hab : a ≤ a + ts.length * c.step := le_add_of_nonneg_right (mul_nonneg (Nat.cast_nonneg _) hh)
  have hlip := hρ.ray o hd
  have hcont : Continuous fun t : ℝ => ρ (o + t • d) := cont_of_lip hK hlip
  have hslip : ∀ t u : ℝ, |Real.exp (-(ch c.muT i * depth ρ (o + t • d) c.lightDir)) - Real.exp (-(ch c.muT i * depth ρ (o + u • d) c.lightDir))| ≤ 2 * ch c.muT i * K * D * |t - u| := by
    intro t u
    refine (exp_neg_lip (mul_nonneg hmu.le (depth_nonneg h0 _ _)) (mul_nonneg hmu.le (depth_nonneg h0 _ _))).trans ?_
    rw [← mul_sub, abs_mul, abs_of_nonneg hmu.le]
    have := depth_lip hK hP.stepShadow hρ hcs hl (o + t • d) (o + u • d)
    rw [len_smul hd] at this
    have := mul_le_mul_of_nonneg_left this hmu.le
    linarith
  have hKs : 0 ≤ 2 * ch c.muT i * K * D := mul_nonneg (mul_nonneg (mul_nonneg zero_le_two hmu.le) hK) hD0
  have hline := line (fun t => ρ (o + t • d)) (fun t => Real.exp (-(ch c.muT i * depth ρ (o + t • d) c.lightDir))) (fun t => h0 _) hmu.le hK hKs hh hcont (cont_of_lip hKs hslip) hlip hslip
    (fun t => by rw [abs_of_pos (Real.exp_pos _)]; exact Real.exp_le_one_iff.mpr (neg_nonpos.mpr (mul_nonneg hmu.le (depth_nonneg h0 _ _))))
    (pts ts a c.step) ts.length (fun k => pts_cell hh hx k) hD (fun k => S k i) (ε := ch c.muT i * K * D * c.stepShadow) (fun k hk => ?_) (mul_nonneg (mul_nonneg (mul_nonneg hmu.le hK) hD0) hP.stepShadow)
  · have e1 : ch L' i = top c i * ∑ k ∈ range ts.length, S k i *
        (trans (ch c.muT i) c.step (fun j => ρ (o + pts ts a c.step j • d)) k - trans (ch c.muT i) c.step (fun j => ρ (o + pts ts a c.step j • d)) (k + 1)) := by
      have hcong : ∀ m, m ≤ ts.length → trans (ch c.muT i) c.step ρ' m = trans (ch c.muT i) c.step (fun j => ρ (o + pts ts a c.step j • d)) m := fun m hm => trans_congr fun k hk => by
        obtain ⟨t, e1, e2, _⟩ := h2 k (by omega)
        rw [pts_some e1]
        exact Option.some.inj (e2.symm.trans (hg _))
      rw [h4, estimate_sum (c := { c with cutoff := 0 })]
      refine congrArg (top c i * ·) (Finset.sum_congr rfl fun k hk => ?_)
      have hk := Finset.mem_range.mp hk
      dsimp only
      rw [hcong k (by omega), hcong (k + 1) (by omega)]
    have e2 : single c ρ o d i = top c i * ∫ t in a..(a + ts.length * c.step),
        Real.exp (-(ch c.muT i * depth ρ (o + t • d) c.lightDir)) * (ch c.muT i * ρ (o + t • d) * Real.exp (-(ch c.muT i * ∫ u in a..t, ρ (o + u • d)))) := by
      unfold single
      rw [int_Ici ha hab, ← intervalIntegral.integral_const_mul]
      · refine intervalIntegral.integral_congr fun t _ => ?_
        rw [int_before hcont ha hz t]
        unfold top
        field_simp
      · intro t ht hn
        rw [hz t ht hn]
        ring
    have e3 : |ch L' i - single c ρ o d i| ≤ top c i * (ch c.muT i * K * D * (c.stepShadow + c.step * (3 + 4 * ch c.muT i * K * D ^ 2))) := by
      rw [e1, e2, ← mul_sub, abs_mul, abs_of_nonneg (hP.top_nonneg i)]
      refine mul_le_mul_of_nonneg_left (hline.trans (le_of_eq ?_)) (hP.top_nonneg i)
      ring
    have t1 := abs_sub_le (ch L i) (ch L' i) (single c ρ o d i)
    have e4 : ch c.muS i / ch c.muT i * ch c.Le i = top c i := rfl
    rw [e4] at hcut ⊢
    rw [mul_add]
    linarith
  · obtain ⟨t, a1, _, a3⟩ := h2 k hk
    rw [pts_some a1]
    exact lit_depth hP hg hK hρ hcs hl a3 i

/-! ### An example: a ball -/

theorem len_sq (v : V3 ℝ) : len v ^ 2 = V3.dot v v := Real.sq_sqrt (by simp only [V3.dot]; nlinarith [mul_self_nonneg v.x, mul_self_nonneg v.y, mul_self_nonneg v.z])

theorem dot_le (u v : V3 ℝ) : |V3.dot u v| ≤ len u * len v := by
  refine abs_le_of_sq_le_sq ?_ (mul_nonneg (len_nonneg _) (len_nonneg _))
  rw [mul_pow, len_sq, len_sq]
  simp only [V3.dot]
  nlinarith [sq_nonneg (u.x * v.y - u.y * v.x), sq_nonneg (u.y * v.z - u.z * v.y), sq_nonneg (u.z * v.x - u.x * v.z)]

theorem len_le (p q : V3 ℝ) : len p ≤ len (p - q) + len q := by
  refine (sq_le_sq₀ (len_nonneg _) (add_nonneg (len_nonneg _) (len_nonneg _))).mp ?_
  have h1 := (le_abs_self _).trans (dot_le (p - q) q)
  have h2 : V3.dot p p = V3.dot (p - q) (p - q) + 2 * V3.dot (p - q) q + V3.dot q q := by
    simp only [V3.dot, V3.sub_x, V3.sub_y, V3.sub_z]
    ring
  rw [add_sq, len_sq, len_sq, len_sq, h2]
  linarith

/-- A ball of radius 1 whose density falls from 1 at the centre to 0 at the surface. -/
noncomputable def ball (p : V3 ℝ) : ℝ := max 0 (1 - len p)

/-- The march through the cells of length h from where the ray may enter the ball, or from its start. -/
noncomputable def ballGrid : Grid := ⟨fun p => some (ball p), fun o d a _ h => some ((List.range ⌈2 / h⌉₊).map fun (k : ℕ) => max a (-V3.dot o d - 1) + ((k : ℝ) + 1 / 2) * h)⟩

theorem ball_smooth : Smooth ball 1 := by
  intro p q
  rw [one_mul]
  refine (abs_max_sub_max_le_max _ _ _ _).trans ?_
  rw [sub_self, abs_zero]
  refine max_le (len_nonneg _) ?_
  have h1 := len_le p q
  have h2 := len_le q p
  have h3 : len (q - p) = len (p - q) := by
    unfold len
    congr 1
    simp only [V3.dot, V3.sub_x, V3.sub_y, V3.sub_z]
    ring
  rw [abs_le]
  constructor <;> linarith

theorem ball_covers {h : ℝ} (hh : 0 < h) (h1 : h ≤ 1) : Covers ballGrid ball 3 h := by
  intro o d hd
  have hn1 := Nat.le_ceil (2 / h)
  have hn2 := Nat.ceil_lt_add_one (a := 2 / h) (by positivity)
  have e : 2 / h * h = 2 := by field_simp
  refine ⟨_, max Eps (-V3.dot o d - 1), rfl, le_max_left _ _, fun k t hk => ?_, ?_, fun t ht hn => ?_⟩
  · rw [List.getElem?_map, Option.map_eq_some_iff] at hk
    obtain ⟨j, hj, rfl⟩ := hk
    obtain ⟨_, rfl⟩ := List.getElem?_eq_some_iff.mp hj
    rw [List.getElem_range]
    constructor <;> nlinarith
  · rw [List.length_map, List.length_range]
    nlinarith
  · rw [List.length_map, List.length_range] at hn
    have hfar : t < -V3.dot o d - 1 ∨ -V3.dot o d + 1 < t := by
      by_contra hcon
      push Not at hcon
      apply hn
      refine ⟨max_le ht hcon.1, ?_⟩
      have := le_max_right Eps (-V3.dot o d - 1)
      nlinarith
    have hlen : 1 ≤ len (o + t • d) := by
      have h2 := dot_le (o + t • d) d
      have h3 : V3.dot (o + t • d) d = V3.dot o d + t * V3.dot d d := by
        simp only [V3.dot, V3.add_x, V3.add_y, V3.add_z, V3.smul_x, V3.smul_y, V3.smul_z]
        ring
      have h4 : len d = 1 := by rw [len, hd, Real.sqrt_one]
      rw [h3, hd, h4, mul_one, mul_one] at h2
      rcases hfar with hf | hf
      · linarith [neg_abs_le (V3.dot o d + t)]
      · linarith [le_abs_self (V3.dot o d + t)]
    unfold ball
    exact max_eq_left (by linarith)

/-- The hypotheses are met: for the ball with steps h ≤ 1 and no cutoff, every value is within 60 h of the single scattering integral. -/
example (c : Cfg) (h : ℝ) (hh : 0 < h) (h1 : h ≤ 1) (hc : construct h h ⟨0, 0, 1⟩ ⟨1, 1, 1⟩ ⟨1 / 2, 1 / 2, 1 / 2⟩ ⟨1 / 2, 1 / 2, 1 / 2⟩ 0 = some c) (o d : V3 ℝ) (hd : V3.dot d d = 1) :
    ∃ L, radiance c ballGrid o d = .ret L ∧ ∀ i, |ch L i - single c ball o d i| ≤ 60 * h := by
  obtain ⟨c', hc', l1, _, c1, c2, c3, c4, c5, c6, c7⟩ := C94_construct h h 0 ⟨0, 0, 1⟩ ⟨1, 1, 1⟩ ⟨1 / 2, 1 / 2, 1 / 2⟩ ⟨1 / 2, 1 / 2, 1 / 2⟩ (by intro e; have := congrArg V3.z e; simp at this)
  obtain rfl : c = c' := Option.some.inj (hc.symm.trans hc')
  have hhalf : ∀ i, ch (⟨1 / 2, 1 / 2, 1 / 2⟩ : V3 ℝ) i = 1 / 2 := fun i => by fin_cases i <;> rfl
  have hmu : ∀ i, ch c.muT i = 1 := fun i => by rw [c6, hhalf]; norm_num
  have hP : Physical c ballGrid := ⟨ch_ext fun i => by rw [c6, ch_add, c4, c5], fun i => by rw [c4, hhalf]; norm_num, fun i => by rw [c5, hhalf]; norm_num, fun i => by rw [hmu]; norm_num,
    fun i => by rw [c3, ch_one]; norm_num, by rw [c1]; exact hh.le, by rw [c2]; exact hh.le, fun p r hr => by obtain rfl := Option.some.inj hr; exact le_max_left _ _⟩
  obtain ⟨L, hL⟩ := radiance_returns c ballGrid (fun _ => rfl) (fun _ _ _ _ _ => rfl) (fun i => (hP.extinct i).ne') o d
  refine ⟨L, hL, fun i => ?_⟩
  have := C94_converges c ballGrid hP ball (fun _ => rfl) (fun _ _ _ _ _ => rfl) 3 1 zero_le_one ball_smooth (by rw [c1]; exact ball_covers hh h1) (by rw [c2]; exact ball_covers hh h1) l1 o d L hd (radiance_estimate hL) i
  rw [hmu, c1, c2, c3, c5, c7, hhalf, ch_one, Real.sqrt_zero] at this
  linarith

end LM.VolRaycast
