import Verif.Model.Volume
import Verif.Props.C30_Bound
import Mathlib.Tactic.LinearCombination
import Mathlib.Analysis.SpecialFunctions.Pow.Real
import Mathlib.Algebra.Order.BigOperators.Group.List
namespace LM.Volume
open LM LM.MathF LM.Surface LM.Material LM.Bound

/-! ### Specification -/

/-- The density of a volume is defined everywhere, and lies between 0 and the majorant it announces. -/
def Majorized (v : Vol) : Prop :=
  v.hasScalar = true ∧ ∃ M, v.maxScalar = some M ∧ 0 ≤ M ∧ ∀ p, ∃ d, v.evalScalar p = some d ∧ 0 ≤ d ∧ d ≤ M

/-- The density vanishes outside of the announced bound. -/
def Bounded (v : Vol) : Prop := ∀ p, ¬ In p v.bound → v.evalScalar p = some 0

/-! ### Single volumes -/

/-- C57, volume::checker with a non-degenerate bound (in x and y). -/
theorem C57_checker (b : Box ℝ) (hx : b.min.x < b.max.x) (hy : b.min.y < b.max.y) :
    Majorized (checker b) ∧ ∀ p, (checker b).evalScalar p = some 0 ∨ (checker b).evalScalar p = some 1 := by
  have key : ∀ p, (checker b).evalScalar p = some 0 ∨ (checker b).evalScalar p = some 1 := by
    intro p
    have h1 : b.max.x - b.min.x ≠ 0 := by linarith
    have h2 : b.max.y - b.min.y ≠ 0 := by linarith
    simp only [checker, divF, h1, h2, if_false, Option.bind_eq_bind, Option.bind_some, pure]
    split <;> simp
  refine ⟨⟨rfl, 1, rfl, zero_le_one, fun p => ?_⟩, key⟩
  rcases key p with e | e
  · exact ⟨0, e, le_refl _, zero_le_one⟩
  · exact ⟨1, e, zero_le_one, le_refl _⟩

/-- The cell size of the checker: the density is 1 exactly on cells of even index sum (points inside the bound). -/
theorem C57_checker_cells (b : Box ℝ) (hx : b.min.x < b.max.x) (hy : b.min.y < b.max.y) (p : V3 ℝ) (i j : ℕ)
    (h1 : (i : ℝ) * ((b.max.x - b.min.x) / 5) ≤ p.x - b.min.x) (h2 : p.x - b.min.x < (i + 1) * ((b.max.x - b.min.x) / 5))
    (h3 : (j : ℝ) * ((b.max.y - b.min.y) / 5) ≤ p.y - b.min.y) (h4 : p.y - b.min.y < (j + 1) * ((b.max.y - b.min.y) / 5)) :
    (checker b).evalScalar p = some (if (i + j) % 2 = 0 then 1 else 0) := by
  have key : ∀ (x l : ℝ) (i : ℕ), 0 < l → (i : ℝ) * (l / 5) ≤ x → x < (i + 1) * (l / 5) → toInt (x / l / (1 / 5)) = i := by
    intro x l i hl a b
    have e : x / l / (1 / 5) = x / (l / 5) := by field_simp
    have hl5 : 0 < l / 5 := by positivity
    have n : ¬ x / (l / 5) < 0 := by
      rw [not_lt]; exact div_nonneg (le_trans (by positivity) a) hl5.le
    rw [e, toInt, if_neg n, Int.floor_eq_iff]
    constructor
    · rw [le_div_iff₀ hl5]; exact_mod_cast a
    · rw [div_lt_iff₀ hl5]; exact_mod_cast b
  have hx' : 0 < b.max.x - b.min.x := by linarith
  have hy' : 0 < b.max.y - b.min.y := by linarith
  simp only [checker, divF, hx'.ne', hy'.ne', if_false, Option.bind_eq_bind, Option.bind_some, pure]
  rw [key _ _ i hx' h1 h2, key _ _ j hy' h3 h4]
  have : Int.tmod ((i : Int) + j) 2 = ((i + j) % 2 : ℕ) := by
    rw [Int.tmod_eq_emod_of_nonneg (by positivity)]; push_cast; rfl
  rw [this]
  norm_cast

/-- C57, volume::constant. -/
theorem C57_constant (b : Option (Box ℝ)) (color : Option (V3 ℝ)) (s : ℝ) (hs : 0 ≤ s) :
    ∃ v, constant b color (some s) = some v ∧ Majorized v ∧ ∀ p, v.evalScalar p = some s :=
  ⟨_, by simp only [constant, reduceCtorEq, and_false, if_false]; rfl, ⟨rfl, s, rfl, hs, fun _ => ⟨s, rfl, hs, le_refl _⟩⟩, fun _ => rfl⟩

/-- Without an explicit bound a constant volume has an empty bound: no ray range intersects it. -/
theorem C57_remark_constant_default_bound (color : Option (V3 ℝ)) (s : ℝ) : ∃ v, constant none color (some s) = some v ∧ ∀ p, ¬ In p v.bound :=
  ⟨_, by simp only [constant, reduceCtorEq, and_false, if_false]; rfl, fun p => C30_default_empty p⟩

/-- C57, volume::gaussian. -/
theorem C57_gaussian (color : Option (V3 ℝ)) (s : ℝ) (pos sigma : V3 ℝ) (hs : 0 ≤ s) (hx : sigma.x ≠ 0) (hy : sigma.y ≠ 0) (hz : sigma.z ≠ 0) :
    ∃ v, gaussian color (some s) pos sigma = some v ∧ Majorized v ∧ v.evalScalar pos = some s := by
  refine ⟨_, by simp only [gaussian, reduceCtorEq, and_false, if_false]; rfl, ⟨rfl, s, rfl, hs, fun p => ?_⟩, ?_⟩
  · refine ⟨_, by simp only [divF, mul_self_ne_zero.mpr hx, mul_self_ne_zero.mpr hy, mul_self_ne_zero.mpr hz, if_false, Option.bind_eq_bind, Option.bind_some, pure]; rfl, ?_, ?_⟩
    · positivity
    · have : Real.exp (-(1 / 2) * ((pos - p).x * (pos - p).x / (sigma.x * sigma.x) + (pos - p).y * (pos - p).y / (sigma.y * sigma.y) + (pos - p).z * (pos - p).z / (sigma.z * sigma.z))) ≤ 1 := by
        rw [Real.exp_le_one_iff]
        have a := div_nonneg (mul_self_nonneg (pos - p).x) (mul_self_nonneg sigma.x)
        have b := div_nonneg (mul_self_nonneg (pos - p).y) (mul_self_nonneg sigma.y)
        have c := div_nonneg (mul_self_nonneg (pos - p).z) (mul_self_nonneg sigma.z)
        linarith
      nlinarith
  · simp [divF, hx, hy, hz]

theorem compAC_sq (s : ℝ) (h : 0 ≤ s) : compAC s * compAC s = 8 * s * -Real.log Eps := by
  have hl : Real.log Eps ≤ 0 := Real.log_nonpos (by unfold Eps; norm_num) (by unfold Eps; norm_num)
  have : 0 ≤ -2 * s * Real.log Eps := by nlinarith
  have e := Real.mul_self_sqrt this
  unfold compAC; linear_combination 4 * e

/-- C57, volume::gaussian: the bound cuts off only a part of the density below scalar · Eps^(4/σ), σ being the largest deviation; i.e. below scalar · Eps for deviations up to 4. -/
theorem C57_gaussian_bound (color : Option (V3 ℝ)) (s : ℝ) (pos sigma : V3 ℝ) (m : ℝ) (hs : 0 ≤ s) (hx : 0 < sigma.x) (hy : 0 < sigma.y) (hz : 0 < sigma.z)
    (h4x : sigma.x ≤ m) (h4y : sigma.y ≤ m) (h4z : sigma.z ≤ m) (v : Vol) (hv : gaussian color (some s) pos sigma = some v) (p : V3 ℝ) (hp : ¬ In p v.bound) :
    ∃ d, v.evalScalar p = some d ∧ d ≤ s * Eps ^ (4 / m) := by
  have hm : 0 < m := lt_of_lt_of_le hx h4x
  simp only [gaussian, reduceCtorEq, and_false, if_false] at hv
  cases hv
  refine ⟨_, by simp only [divF, mul_self_ne_zero.mpr hx.ne', mul_self_ne_zero.mpr hy.ne', mul_self_ne_zero.mpr hz.ne', if_false, Option.bind_eq_bind, Option.bind_some, pure]; rfl, ?_⟩
  have hE : 0 < Eps := by unfold Eps; norm_num
  have hl : 0 ≤ -Real.log Eps := by
    have := Real.log_nonpos hE.le (by unfold Eps; norm_num); linarith
  apply mul_le_mul_of_nonneg_left _ hs
  rw [Real.rpow_def_of_pos hE, Real.exp_le_exp]
  set ac := max (max (compAC sigma.x) (compAC sigma.y)) (compAC sigma.z) with hac
  have cx : compAC sigma.x ≤ ac := le_trans (le_max_left _ _) (le_max_left _ _)
  have cy : compAC sigma.y ≤ ac := le_trans (le_max_right _ _) (le_max_left _ _)
  have cz : compAC sigma.z ≤ ac := le_max_right _ _
  have n0 : ∀ s, 0 ≤ compAC s := fun s => by unfold compAC; positivity
  have one : ∀ (σ d : ℝ), 0 < σ → σ ≤ m → compAC σ ≤ ac → ac < |d| → 8 * (-Real.log Eps) / m ≤ d * d / (σ * σ) := by
    intro σ d h h4 hc hd
    have e := compAC_sq σ h.le
    have e2 : compAC σ * compAC σ ≤ d * d := by
      rw [← abs_mul_abs_self d]; exact mul_self_le_mul_self (n0 _) (le_trans hc hd.le)
    rw [le_div_iff₀ (by positivity), div_mul_eq_mul_div, div_le_iff₀ hm]
    have : 8 * -Real.log Eps * (σ * σ) = (8 * σ * -Real.log Eps) * σ := by ring
    rw [this, ← e]
    calc compAC σ * compAC σ * σ ≤ compAC σ * compAC σ * m := mul_le_mul_of_nonneg_left h4 (mul_self_nonneg _)
      _ ≤ d * d * m := mul_le_mul_of_nonneg_right e2 hm.le
  have a := div_nonneg (mul_self_nonneg (pos - p).x) (mul_self_nonneg sigma.x)
  have b := div_nonneg (mul_self_nonneg (pos - p).y) (mul_self_nonneg sigma.y)
  have c := div_nonneg (mul_self_nonneg (pos - p).z) (mul_self_nonneg sigma.z)
  have big : 8 * (-Real.log Eps) / m ≤ (pos - p).x * (pos - p).x / (sigma.x * sigma.x) + (pos - p).y * (pos - p).y / (sigma.y * sigma.y) + (pos - p).z * (pos - p).z / (sigma.z * sigma.z) := by
    by_contra hc
    apply hp
    simp only [In, gaussianBound, ← hac, V3.sub_x, V3.sub_y, V3.sub_z, V3.add_x, V3.add_y, V3.add_z, V3.all]
    have hx' : ¬ ac < |(pos - p).x| := fun h => hc (by linarith [one _ _ hx h4x cx h])
    have hy' : ¬ ac < |(pos - p).y| := fun h => hc (by linarith [one _ _ hy h4y cy h])
    have hz' : ¬ ac < |(pos - p).z| := fun h => hc (by linarith [one _ _ hz h4z cz h])
    rw [not_lt, abs_le] at hx' hy' hz'
    simp only [V3.sub_x, V3.sub_y, V3.sub_z] at hx' hy' hz'
    refine ⟨⟨?_, ?_⟩, ⟨?_, ?_⟩, ?_, ?_⟩ <;> linarith
  have e : Real.log Eps * (4 / m) = -(1 / 2) * (8 * (-Real.log Eps) / m) := by ring
  rw [e]
  nlinarith

/-- C57, volume::sphere (any radius). -/
theorem C57_sphere (color : Option (V3 ℝ)) (s : ℝ) (pos : V3 ℝ) (radius : ℝ) (hs : 0 ≤ s) :
    ∃ v, sphere color (some s) pos radius = some v ∧ Majorized v ∧ Bounded v ∧
      ∀ p, V3.dot (p - pos) (p - pos) < radius ^ 2 ∧ 0 < radius → v.evalScalar p = some s := by
  have val : ∀ p : V3 ℝ, (s * (if Real.sqrt (V3.dot (pos - p) (pos - p)) < radius then 1 else 0) = 0) ∨
      (Real.sqrt (V3.dot (pos - p) (pos - p)) < radius ∧ s * (if Real.sqrt (V3.dot (pos - p) (pos - p)) < radius then 1 else 0) = s) := by
    intro p; split <;> simp_all
  refine ⟨_, by simp only [sphere, reduceCtorEq, and_false, if_false]; rfl, ⟨rfl, s, rfl, hs, fun p => ⟨_, rfl, ?_, ?_⟩⟩, fun p hp => ?_, fun p hp => ?_⟩
  · beta_reduce; rcases val p with e | ⟨_, e⟩ <;> rw [e]; exact hs
  · beta_reduce; rcases val p with e | ⟨_, e⟩ <;> rw [e]; exact hs
  · simp only [Option.map_some, Option.some.injEq]
    rcases val p with e | ⟨h, e⟩
    · exact e
    · exfalso; apply hp
      have hr : 0 ≤ radius := le_trans (Real.sqrt_nonneg _) h.le
      have hE : 0 < Eps := by unfold Eps; norm_num
      have comp : ∀ d : ℝ, d * d ≤ V3.dot (pos - p) (pos - p) → |d| ≤ radius := by
        intro d hd
        rw [← Real.sqrt_mul_self_eq_abs]
        exact le_trans (Real.sqrt_le_sqrt hd) h.le
      have hx := comp (pos - p).x (by simp only [V3.dot]; nlinarith [mul_self_nonneg (pos - p).y, mul_self_nonneg (pos - p).z])
      have hy := comp (pos - p).y (by simp only [V3.dot]; nlinarith [mul_self_nonneg (pos - p).x, mul_self_nonneg (pos - p).z])
      have hz := comp (pos - p).z (by simp only [V3.dot]; nlinarith [mul_self_nonneg (pos - p).x, mul_self_nonneg (pos - p).y])
      rw [abs_le] at hx hy hz
      simp only [V3.sub_x, V3.sub_y, V3.sub_z] at hx hy hz
      simp only [In, sphereBound, V3.sub_x, V3.sub_y, V3.sub_z, V3.add_x, V3.add_y, V3.add_z, V3.all]
      refine ⟨⟨?_, ?_⟩, ⟨?_, ?_⟩, ?_, ?_⟩ <;> linarith
  · have : Real.sqrt (V3.dot (pos - p) (pos - p)) < radius := by
      rw [Real.sqrt_lt' hp.2]
      have e : V3.dot (pos - p) (pos - p) = V3.dot (p - pos) (p - pos) := by simp only [V3.dot, V3.sub_x, V3.sub_y, V3.sub_z]; ring
      rw [e]; exact hp.1
    simp [this]

/-! ### Compound volumes -/

theorem inBound_iff (p : V3 ℝ) (b : Box ℝ) : inBound p b = true ↔ In p b := by
  simp only [inBound, Bool.and_eq_true, decide_eq_true_eq, In, ge_iff_le]
  tauto

theorem multiBound_mono (den : List Vol) : ∀ (b0 : Box ℝ) (p : V3 ℝ), (In p b0 ∨ ∃ v ∈ den, In p v.bound) →
    In p (den.foldl (fun b v => ⟨⟨min b.min.x v.bound.min.x, min b.min.y v.bound.min.y, min b.min.z v.bound.min.z⟩,
      ⟨max b.max.x v.bound.max.x, max b.max.y v.bound.max.y, max b.max.z v.bound.max.z⟩⟩) b0) := by
  induction den with
  | nil => intro b0 p h; simpa using h
  | cons v den ih =>
    intro b0 p h
    simp only [List.foldl_cons]
    apply ih
    rcases h with h | ⟨w, hw, h⟩
    · left
      obtain ⟨⟨h1, h2⟩, ⟨h3, h4⟩, h5, h6⟩ := h
      exact ⟨⟨le_trans (min_le_left _ _) h1, le_trans h2 (le_max_left _ _)⟩, ⟨le_trans (min_le_left _ _) h3, le_trans h4 (le_max_left _ _)⟩, le_trans (min_le_left _ _) h5, le_trans h6 (le_max_left _ _)⟩
    · rcases List.mem_cons.mp hw with rfl | hw
      · left
        obtain ⟨⟨h1, h2⟩, ⟨h3, h4⟩, h5, h6⟩ := h
        exact ⟨⟨le_trans (min_le_right _ _) h1, le_trans h2 (le_max_right _ _)⟩, ⟨le_trans (min_le_right _ _) h3, le_trans h4 (le_max_right _ _)⟩, le_trans (min_le_right _ _) h5, le_trans h6 (le_max_right _ _)⟩
      · exact .inr ⟨w, hw, h⟩

theorem multiMax_eq (den : List Vol) (M : Vol → ℝ) (h : ∀ v ∈ den, v.maxScalar = some (M v)) : multiMax den = some (den.map M).sum := by
  have gen : ∀ (den : List Vol) (a : ℝ), (∀ v ∈ den, v.maxScalar = some (M v)) → den.foldlM (fun s v => v.maxScalar.map (fun m => s + m)) a = some (a + (den.map M).sum) := by
    intro den
    induction den with
    | nil => intro a _; simp [pure]
    | cons v den ih =>
      intro a h
      simp only [List.foldlM_cons, h v (by simp), Option.map_some, Option.bind_eq_bind, Option.bind_some, List.map_cons, List.sum_cons]
      rw [ih _ (fun w hw => h w (by simp [hw]))]; congr 1; ring
  rw [multiMax, gen den 0 h, zero_add]

open Classical in
theorem multiScalar_eq (den : List Vol) (p : V3 ℝ) (f : Vol → ℝ) (h : ∀ v ∈ den, v.evalScalar p = some (f v)) :
    multiScalar den p = some (den.map (fun v => if In p v.bound then f v else 0)).sum := by
  have gen : ∀ (den : List Vol) (a : ℝ), (∀ v ∈ den, v.evalScalar p = some (f v)) →
      den.foldlM (fun s v => if inBound p v.bound then (v.evalScalar p).map (fun x => s + x) else some s) a = some (a + (den.map (fun v => if In p v.bound then f v else 0)).sum) := by
    intro den
    induction den with
    | nil => intro a _; simp [pure]
    | cons v den ih =>
      intro a h
      have ih' := fun a => ih a (fun w hw => h w (by simp [hw]))
      by_cases hb : In p v.bound
      · simp only [List.foldlM_cons, (inBound_iff p v.bound).mpr hb, if_true, h v (by simp), Option.map_some, Option.bind_eq_bind, Option.bind_some, List.map_cons, List.sum_cons, hb]
        rw [ih']; congr 1; ring
      · have hf : inBound p v.bound = false := by rw [← Bool.not_eq_true, inBound_iff]; exact hb
        simp only [List.foldlM_cons, hf, Bool.false_eq_true, if_false, Option.bind_eq_bind, Option.bind_some, List.map_cons, List.sum_cons, hb]
        rw [ih']; congr 1; ring
  rw [multiScalar, gen den 0 h, zero_add]

open Classical in
/-- C57, volume::multi of any number of volumes: it is majorized by the sum of the maxima, vanishes outside of its bound, and its density at p is the sum of the densities of
    the volumes whose bound contains p. -/
theorem C57_multi (alb den : List Vol) (h0 : den ≠ []) (hlen : alb.length = den.length) (hc : ∀ v ∈ alb, v.hasColor = true) (hd : ∀ v ∈ den, Majorized v) :
    ∃ v, multi alb den = some v ∧ Majorized v ∧ Bounded v ∧ (∀ (M : Vol → ℝ), (∀ w ∈ den, w.maxScalar = some (M w)) → v.maxScalar = some (den.map M).sum) ∧
      ∀ p (f : Vol → ℝ), (∀ w ∈ den, w.evalScalar p = some (f w)) → v.evalScalar p = some (den.map (fun w => if In p w.bound then f w else 0)).sum := by
  have hl : den.length ≠ 0 := by simpa using h0
  have c1 : ¬ (alb.length = 0 ∨ den.length = 0 ∨ den.length ≠ alb.length) := by omega
  have c2 : (alb.any (fun v => !v.hasColor) || den.any (fun v => !v.hasScalar)) = false := by
    simp only [Bool.or_eq_false_iff, List.any_eq_false, Bool.not_eq_true', Bool.not_eq_false]
    exact ⟨fun v hv => by simpa using hc v hv, fun v hv => by simpa using (hd v hv).1⟩
  choose! M hM using fun v (hv : v ∈ den) => (hd v hv).2
  have hf : ∀ p, ∃ f : Vol → ℝ, ∀ v ∈ den, v.evalScalar p = some (f v) ∧ 0 ≤ f v ∧ f v ≤ M v := by
    intro p
    choose! f hf using fun v (hv : v ∈ den) => (hM v hv).2.2 p
    exact ⟨f, hf⟩
  refine ⟨_, by simp only [multi, c1, c2, Bool.false_eq_true, if_false]; rfl, ⟨rfl, (den.map M).sum, multiMax_eq den M (fun v hv => (hM v hv).1), ?_, fun p => ?_⟩, fun p hp => ?_, ?_, ?_⟩
  · exact List.sum_nonneg (by simpa using fun v hv => (hM v hv).2.1)
  · obtain ⟨f, hf⟩ := hf p
    refine ⟨_, multiScalar_eq den p f (fun v hv => (hf v hv).1), ?_, ?_⟩
    · apply List.sum_nonneg
      simp only [List.mem_map, forall_exists_index, and_imp, forall_apply_eq_imp_iff₂]
      intro v hv
      split
      · exact (hf v hv).2.1
      · exact le_refl _
    · apply List.sum_le_sum
      intro v hv
      split
      · exact (hf v hv).2.2
      · exact (hM v hv).2.1
  · obtain ⟨f, hf⟩ := hf p
    show multiScalar den p = some 0
    rw [multiScalar_eq den p f (fun v hv => (hf v hv).1)]
    congr 1
    apply List.sum_eq_zero
    simp only [List.mem_map, forall_exists_index, and_imp, forall_apply_eq_imp_iff₂]
    intro v hv
    rw [if_neg]
    exact fun h => hp (multiBound_mono den _ p (.inr ⟨v, hv, h⟩))
  · exact fun M hM => multiMax_eq den M hM
  · exact fun p f hf => multiScalar_eq den p f hf

open Classical in
theorem multiColor_eq (vs : List (Vol × Vol)) (p : V3 ℝ) (f : Vol → ℝ) (c : Vol → V3 ℝ) (h : ∀ va ∈ vs, va.1.evalScalar p = some (f va.1) ∧ va.2.evalColor p = some (c va.2)) :
    multiColor vs p = divV (vs.map (fun va => if In p va.1.bound then f va.1 • c va.2 else 0)).sum (vs.map (fun va => if In p va.1.bound then f va.1 else 0)).sum := by
  have gen : ∀ (vs : List (Vol × Vol)) (a : V3 ℝ × ℝ), (∀ va ∈ vs, va.1.evalScalar p = some (f va.1) ∧ va.2.evalColor p = some (c va.2)) →
      vs.foldlM (fun (acc : V3 ℝ × ℝ) va => if inBound p va.1.bound then do
        let sc ← va.1.evalScalar p
        let c ← va.2.evalColor p
        return (acc.1 + sc • c, acc.2 + sc)
      else some acc) a = some (a.1 + (vs.map (fun va => if In p va.1.bound then f va.1 • c va.2 else 0)).sum, a.2 + (vs.map (fun va => if In p va.1.bound then f va.1 else 0)).sum) := by
    intro vs
    induction vs with
    | nil => intro a _; simp [pure]
    | cons v vs ih =>
      intro a h
      have ih' := fun a => ih a (fun w hw => h w (by simp [hw]))
      obtain ⟨h1, h2⟩ := h v (by simp)
      by_cases hb : In p v.1.bound
      · simp only [List.foldlM_cons, (inBound_iff p v.1.bound).mpr hb, if_true, h1, h2, Option.bind_eq_bind, Option.bind_some, pure, List.map_cons, List.sum_cons, hb]
        simp only [Option.bind_eq_bind, pure] at ih'
        rw [ih', add_assoc, add_assoc]
      · have hf : inBound p v.1.bound = false := by rw [← Bool.not_eq_true, inBound_iff]; exact hb
        simp only [List.foldlM_cons, hf, Bool.false_eq_true, if_false, Option.bind_eq_bind, Option.bind_some, List.map_cons, List.sum_cons, hb, zero_add]
        simp only [Option.bind_eq_bind, pure] at ih' ⊢
        exact ih' a
  rw [multiColor, gen vs (0, 0) h]
  simp

/-- C57, colour of volume::multi: wherever the density is positive (the only place media ask for it), the colour is defined, and an affine combination: a common
    lower and upper bound of the colours of its parts bounds it as well. -/
theorem C57_multi_color (alb den : List Vol) (v : Vol) (hv : multi alb den = some v) (hd : ∀ w ∈ den, Majorized w) (p : V3 ℝ) (c : Vol → V3 ℝ)
    (hcol : ∀ w ∈ alb, w.evalColor p = some (c w)) (d : ℝ) (hpos : v.evalScalar p = some d) (h : 0 < d) :
    ∃ col, v.evalColor p = some col ∧ ∀ lo hi : ℝ, (∀ w ∈ alb, (lo ≤ (c w).x ∧ (c w).x ≤ hi) ∧ (lo ≤ (c w).y ∧ (c w).y ≤ hi) ∧ lo ≤ (c w).z ∧ (c w).z ≤ hi) →
      (lo ≤ col.x ∧ col.x ≤ hi) ∧ (lo ≤ col.y ∧ col.y ≤ hi) ∧ lo ≤ col.z ∧ col.z ≤ hi := by
  classical
  simp only [multi] at hv
  split at hv
  · cases hv
  next hl =>
  split at hv
  · cases hv
  cases hv
  have hlen : den.length = alb.length := by omega
  choose! M hM using fun v (hv : v ∈ den) => (hd v hv).2
  choose! f hf using fun v (hv : v ∈ den) => (hM v hv).2.2 p
  have hz : ∀ va ∈ den.zip alb, va.1.evalScalar p = some (f va.1) ∧ va.2.evalColor p = some (c va.2) := by
    intro va hva
    exact ⟨(hf _ (List.of_mem_zip hva).1).1, hcol _ (List.of_mem_zip hva).2⟩
  have hnn : ∀ va ∈ den.zip alb, 0 ≤ f va.1 := fun va hva => (hf _ (List.of_mem_zip hva).1).2.1
  have hmem : ∀ va ∈ den.zip alb, va.2 ∈ alb := fun va hva => (List.of_mem_zip hva).2
  have hs : ((den.zip alb).map (fun va => if In p va.1.bound then f va.1 else 0)).sum = d := by
    have e : (den.zip alb).map (fun va => if In p va.1.bound then f va.1 else 0) = den.map (fun w => if In p w.bound then f w else 0) := by
      have : (den.zip alb).map (fun va => if In p va.1.bound then f va.1 else 0) = ((den.zip alb).map Prod.fst).map (fun w => if In p w.bound then f w else 0) := by
        rw [List.map_map]; rfl
      rw [this, List.map_fst_zip (by omega)]
    rw [e]
    have := multiScalar_eq den p f (fun v hv => (hf v hv).1)
    have hp' : multiScalar den p = some d := hpos
    rw [hp'] at this
    exact (Option.some.inj this).symm
  refine ⟨_, by
    show multiColor (den.zip alb) p = _
    rw [multiColor_eq _ p f c hz, hs, divV, if_neg h.ne'], fun lo hi hb => ?_⟩
  have comp : ∀ (π : V3 ℝ → ℝ), (π 0 = 0) → (∀ a b, π (a + b) = π a + π b) → (∀ (k : ℝ) a, π (k • a) = k * π a) → (∀ w ∈ alb, lo ≤ π (c w) ∧ π (c w) ≤ hi) →
      lo ≤ π ((1 / d) • ((den.zip alb).map (fun va => if In p va.1.bound then f va.1 • c va.2 else 0)).sum) ∧
      π ((1 / d) • ((den.zip alb).map (fun va => if In p va.1.bound then f va.1 • c va.2 else 0)).sum) ≤ hi := by
    intro π p0 pa ps hbnd
    have gen : ∀ l : List (Vol × Vol), (∀ va ∈ l, 0 ≤ f va.1) → (∀ va ∈ l, va.2 ∈ alb) →
        lo * (l.map (fun va => if In p va.1.bound then f va.1 else 0)).sum ≤ π (l.map (fun va => if In p va.1.bound then f va.1 • c va.2 else 0)).sum ∧
        π (l.map (fun va => if In p va.1.bound then f va.1 • c va.2 else 0)).sum ≤ hi * (l.map (fun va => if In p va.1.bound then f va.1 else 0)).sum := by
      intro l
      induction l with
      | nil => intro _ _; simp [p0]
      | cons v l ih =>
        intro h1 h2
        obtain ⟨i1, i2⟩ := ih (fun va hva => h1 va (by simp [hva])) (fun va hva => h2 va (by simp [hva]))
        have hv := h1 v (by simp)
        obtain ⟨b1, b2⟩ := hbnd v.2 (h2 v (by simp))
        simp only [List.map_cons, List.sum_cons, pa]
        split
        · rw [ps]; constructor <;> nlinarith
        · rw [p0]; constructor <;> linarith
    obtain ⟨g1, g2⟩ := gen (den.zip alb) hnn hmem
    rw [hs] at g1 g2
    rw [ps, one_div_mul_eq_div, le_div_iff₀ h, div_le_iff₀ h]
    exact ⟨g1, g2⟩
  refine ⟨comp (·.x) rfl (fun _ _ => rfl) (fun _ _ => rfl) (fun w hw => (hb w hw).1), comp (·.y) rfl (fun _ _ => rfl) (fun _ _ => rfl) (fun w hw => (hb w hw).2.1),
    comp (·.z) rfl (fun _ _ => rfl) (fun _ _ => rfl) (fun w hw => (hb w hw).2.2)⟩

/-- The documentation of volume::gaussian promises a bound where the density fell to a small fraction of its maximum. The code uses σ where σ² is needed: for large deviations the
    volume is cut off where the density is close to its maximum. -/
theorem C57_remark_gaussian_cutoff : ∃ (sigma : ℝ), 0 < sigma ∧ ∃ v, gaussian none (some 1) 0 (V3.all sigma) = some v ∧ ∃ p, ¬ In p v.bound ∧ ∃ d, v.evalScalar p = some d ∧ 9 / 10 < d := by
  refine ⟨10000, by norm_num, _, by simp only [gaussian, reduceCtorEq, and_false, if_false]; rfl, ⟨1000, 0, 0⟩, ?_, ?_⟩
  · intro h
    have h2 := h.1.2
    simp only [gaussianBound, V3.add_x, V3.all, max_self] at h2
    have l : -Real.log Eps ≤ 10 := by
      have : Real.log Eps = -Real.log 1000 := by unfold Eps; rw [one_div, Real.log_inv]
      rw [this, neg_neg]
      have : Real.log 1000 ≤ Real.log (Real.exp 10) := by
        apply Real.log_le_log (by norm_num)
        have e : Real.exp 10 = Real.exp 1 ^ (10 : ℕ) := by rw [← Real.exp_nat_mul]; norm_num
        have e1 : (2 : ℝ) ≤ Real.exp 1 := by have := Real.add_one_le_exp (1 : ℝ); linarith
        rw [e]
        calc (1000 : ℝ) ≤ 2 ^ 10 := by norm_num
          _ ≤ Real.exp 1 ^ 10 := pow_le_pow_left₀ (by norm_num) e1 10
      rwa [Real.log_exp] at this
    have sq := compAC_sq 10000 (by norm_num)
    have h0 : (0 : V3 ℝ).x = 0 := rfl
    rw [h0] at h2
    nlinarith
  · refine ⟨_, by simp only [divF, V3.all]; norm_num; rfl, ?_⟩
    have := Real.add_one_le_exp (-(1 / 200) : ℝ)
    norm_num at *
    linarith

/-- Non-vacuity: a compound of a ball, a Gaussian and a checker board. -/
example : ∃ a b v, sphere none (some 2) 0 1 = some a ∧ gaussian none (some 3) 0 (V3.all 1) = some b ∧
    multi (constant none (some 0) none).toList (List.replicate 1 a) = some v ∧ Majorized a ∧ Majorized b ∧ Majorized (checker ⟨V3.all 0, V3.all 1⟩) ∧ Majorized v := by
  obtain ⟨a, ha, ma, _⟩ := C57_sphere none 2 0 1 (by norm_num)
  obtain ⟨b, hb, mb, _⟩ := C57_gaussian none 3 0 (V3.all 1) (by norm_num) (by simp [V3.all]) (by simp [V3.all]) (by simp [V3.all])
  obtain ⟨v, hv, mv, _⟩ := C57_multi (constant none (some 0) none).toList [a] (by simp) (by simp [constant]) (by simp [constant]) (by simpa using ma)
  exact ⟨a, b, v, ha, hb, hv, ma, mb, (C57_checker _ (by simp [V3.all]) (by simp [V3.all])).1, mv⟩

end LM.Volume
