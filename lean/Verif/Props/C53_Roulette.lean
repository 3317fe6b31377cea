import Verif.Model.Renderer
import Verif.Props.C46_Path
import Mathlib.Analysis.SpecialFunctions.Integrals.Basic
namespace LM.Render
open LM LM.Surface LM.Material LM.Light LM.Volume LM.Path MeasureTheory

/-! ### Specification -/

/-- All components are nonnegative. -/
def NonNeg (v : V3 ℝ) : Prop := 0 ≤ v.x ∧ 0 ≤ v.y ∧ 0 ≤ v.z

/-- The value a surviving path goes on with: 0 after a break. -/
def value : Option (Option (V3 ℝ)) → V3 ℝ
  | some (some t) => t
  | _ => 0

/-- Walking without roulette. -/
def noRoulette : ℕ → V3 ℝ → ℝ → Option (Option (V3 ℝ)) := fun _ t _ => some (some t)

/-- Expectation over k independent uniform random numbers. -/
noncomputable def expect : ℕ → (List ℝ → ℝ) → ℝ
  | 0, f => f []
  | k + 1, f => ∫ x in Set.Ico (0 : ℝ) 1, expect k (fun l => f (x :: l))

/-- The random numbers rs, with those of roulette from iteration nv on taken from us. -/
def withRoulette (rs : ℕ → Rnd) (nv : ℕ) (us : List ℝ) : ℕ → Rnd := fun i => { rs i with rr := us.getD (i - nv) 0 }

/-- Any linear measurement of the contributions of a sample, e.g. one channel of one pixel. -/
noncomputable def measure (F : ℝ × ℝ → V3 ℝ →ₗ[ℝ] ℝ) : Option (List Splat) → ℝ
  | none => 0
  | some l => (l.map (fun s => F s.rp s.C)).sum

/-- Sampling weights are nonnegative. -/
structure NonNegWeights (W : World) (dir : TransDir) : Prop where
  direction : ∀ u sp wi comp wo C, sampleDirection W u sp wi comp dir = .ok wo C → NonNeg C
  component : ∀ u sp wi c w, sampleComponent W u sp wi = some (c, w) → 0 ≤ w

/-! ### One roulette -/

theorem compMax_nonneg {t : V3 ℝ} (h : NonNeg t) : 0 ≤ compMax t := le_max_of_le_left (le_max_of_le_left h.1)

theorem compMax_zero {t : V3 ℝ} (h : NonNeg t) (h0 : compMax t ≤ 0) : t = 0 := by
  unfold compMax at h0
  have hx : t.x ≤ 0 := le_trans (le_trans (le_max_left _ _) (le_max_left _ _)) h0
  have hy : t.y ≤ 0 := le_trans (le_trans (le_max_right _ _) (le_max_left _ _)) h0
  have hz : t.z ≤ 0 := le_trans (le_max_right _ _) h0
  obtain ⟨a, b, c⟩ := h
  ext <;> simp <;> linarith

/-- C53. For every throughput and every random number in [0,1), roulette is defined: a path that survives is divided by a positive survival probability; a path of zero throughput never survives. -/
theorem C53_defined (qmin : ℝ) (h1 : qmin < 1) (t : V3 ℝ) (u : ℝ) (hu : u < 1) :
    roulette qmin t u = some none ∨ ∃ p : ℝ, 0 < p ∧ p ≤ 1 - qmin ∧ 0 < compMax t ∧ roulette qmin t u = some (some ((1 / p) • t)) := by
  unfold roulette
  dsimp only
  by_cases h : u < max qmin (1 - compMax t)
  · left; rw [if_pos h]
  · right
    push Not at h
    have h2 : max qmin (1 - compMax t) < 1 := lt_of_le_of_lt h hu
    have h3 := (max_lt_iff.mp h2).2
    refine ⟨1 - max qmin (1 - compMax t), by linarith, by linarith [le_max_left qmin (1 - compMax t)], by linarith, ?_⟩
    rw [if_neg (not_lt.mpr h), divV, if_neg (by linarith)]
    rfl

theorem integral_threshold (q A B : ℝ) (h0 : 0 ≤ q) (h1 : q ≤ 1) : ∫ x in (0 : ℝ)..1, (if x < q then A else B) = q * A + (1 - q) * B := by
  have e1 : ∫ x in (0 : ℝ)..q, (if x < q then A else B) = ∫ _ in (0 : ℝ)..q, A := by
    refine intervalIntegral.integral_congr_ae ?_
    have : ∀ᵐ x : ℝ, x ≠ q := by simp [ae_iff]
    filter_upwards [this] with x hx hm
    rw [Set.uIoc_of_le h0] at hm
    rw [if_pos (lt_of_le_of_ne hm.2 hx)]
  have e2 : ∫ x in q..1, (if x < q then A else B) = ∫ _ in q..1, B := by
    refine intervalIntegral.integral_congr (fun x hx => ?_)
    rw [Set.uIcc_of_le h1] at hx
    simp only [if_neg (not_lt.mpr hx.1)]
  have i1 : IntervalIntegrable (fun x => if x < q then A else B) volume 0 q := by
    refine (intervalIntegrable_const (c := A)).congr_ae ?_
    rw [Filter.EventuallyEq, ae_restrict_iff' measurableSet_uIoc]
    have : ∀ᵐ x : ℝ, x ≠ q := by simp [ae_iff]
    filter_upwards [this] with x hx hm
    rw [Set.uIoc_of_le h0] at hm
    rw [if_pos (lt_of_le_of_ne hm.2 hx)]
  have i2 : IntervalIntegrable (fun x => if x < q then A else B) volume q 1 := by
    refine (intervalIntegrable_const (c := B)).congr_ae ?_
    rw [Filter.EventuallyEq, ae_restrict_iff' measurableSet_uIoc]
    filter_upwards with x hm
    rw [Set.uIoc_of_le h1] at hm
    rw [if_neg (not_lt.mpr hm.1.le)]
  rw [← intervalIntegral.integral_add_adjacent_intervals i1 i2, e1, e2, intervalIntegral.integral_const, intervalIntegral.integral_const]
  simp

/-- The threshold of roulette. -/
theorem threshold_range (qmin : ℝ) (h0 : 0 ≤ qmin) (h1 : qmin < 1) (t : V3 ℝ) (ht : NonNeg t) :
    0 ≤ max qmin (1 - compMax t) ∧ max qmin (1 - compMax t) ≤ 1 ∧ (max qmin (1 - compMax t) = 1 → t = 0) := by
  refine ⟨le_max_of_le_left h0, max_le h1.le (by linarith [compMax_nonneg ht]), fun h => ?_⟩
  rcases max_choice qmin (1 - compMax t) with e | e
  · rw [e] at h; linarith
  · rw [e] at h; exact compMax_zero ht (by linarith)

/-- C53. The expected value of any linear measurement of the throughput after roulette is its value before. -/
theorem C53_expectation (qmin : ℝ) (h0 : 0 ≤ qmin) (h1 : qmin < 1) (t : V3 ℝ) (ht : NonNeg t) (F : V3 ℝ →ₗ[ℝ] ℝ) :
    ∫ u in (0 : ℝ)..1, F (value (roulette qmin t u)) = F t := by
  obtain ⟨a, b, c⟩ := threshold_range qmin h0 h1 t ht
  set q := max qmin (1 - compMax t) with hq
  by_cases h : q = 1
  · have h' := c h
    subst h'
    have : ∀ u, F (value (roulette qmin 0 u)) = 0 := by
      intro u
      unfold roulette
      dsimp only
      rw [← hq, h]
      by_cases hu : u < 1
      · simp [if_pos hu, value]
      · simp [if_neg hu, value, divV]
    simp [this]
  · have h' : q < 1 := lt_of_le_of_ne b h
    have : ∀ u, F (value (roulette qmin t u)) = if u < q then 0 else 1 / (1 - q) * F t := by
      intro u
      unfold roulette
      dsimp only
      rw [← hq]
      by_cases hu : u < q
      · simp [if_pos hu, value]
      · rw [if_neg hu, if_neg hu, divV, if_neg (by linarith)]
        simp [value]
    simp only [this]
    rw [integral_threshold q _ _ a b]
    have : (1 : ℝ) - q ≠ 0 := by linarith
    field_simp
    ring

/-! ### Whole walks -/

/-- The state or hop with throughput scaled. -/
def St.scale (k : ℝ) (st : St) : St := { st with thr := k • st.thr }
def Hop.scale (k : ℝ) (h : Hop) : Hop := { h with thr := k • h.thr }
def Splat.scale (k : ℝ) (s : Splat) : Splat := { s with C := k • s.C }

/-- Contributions are proportional to the throughput, and nothing else depends on it. -/
def Proportional (body : ℕ → St → Rnd → Option (List Splat × Option Hop)) : Prop :=
  ∀ k nv st r, body nv (st.scale k) r = (body nv st r).map (fun x => (x.1.map (Splat.scale k), x.2.map (Hop.scale k)))

theorem measure_scale (F : ℝ × ℝ → V3 ℝ →ₗ[ℝ] ℝ) (k : ℝ) (l : List Splat) : (((l.map (Splat.scale k)).map (fun s => F s.rp s.C)).sum) = k * (l.map (fun s => F s.rp s.C)).sum := by
  induction l with
  | nil => simp
  | cons a l ih =>
    simp only [List.map_cons, List.sum_cons, ih, Splat.scale, map_smul, smul_eq_mul]
    ring

theorem measure_append (F : ℝ × ℝ → V3 ℝ →ₗ[ℝ] ℝ) (a b : List Splat) : measure F (some (a ++ b)) = measure F (some a) + measure F (some b) := by simp [measure]

theorem advance_scale (W : World) (k : ℝ) (nv : ℕ) (h : Hop) (r : Rnd) :
    advance W noRoulette nv (h.scale k) r = (advance W noRoulette nv h r).map (fun o => o.map (St.scale k)) := by
  unfold advance noRoulette Hop.scale
  dsimp only
  cases h.hit.geom.infinite
  · simp only [Bool.false_eq_true, if_false]
    cases sampleComponent W r.comp h.hit (-h.wo) with
    | none => rfl
    | some s => simp only [Option.map_some, St.scale, smul_smul, mul_comm]
  · rfl

theorem walk_scale (W : World) (body) (hb : Proportional body) (rs : ℕ → Rnd) (k : ℝ) (n nv : ℕ) (st : St) :
    walk W noRoulette body rs n nv (st.scale k) = (walk W noRoulette body rs n nv st).map (fun l => l.map (Splat.scale k)) := by
  induction n generalizing nv st with
  | zero => rfl
  | succ n ih =>
    simp only [walk]
    rw [hb k nv st (rs nv)]
    cases hx : body nv st (rs nv) with
    | none => rfl
    | some x =>
      obtain ⟨out, h⟩ := x
      cases h with
      | none => rfl
      | some h =>
        simp only [Option.map_some, advance_scale]
        cases ha : advance W noRoulette nv h (rs nv) with
        | none => rfl
        | some o =>
          cases o with
          | none => rfl
          | some st' =>
            simp only [Option.map_some, ih]
            cases walk W noRoulette body rs n (nv + 1) st' <;> simp

/-- Only the random numbers of the iterations to come matter. -/
theorem walk_congr (W : World) (rr body) (rs rs' : ℕ → Rnd) (n nv : ℕ) (st : St) (h : ∀ i, nv ≤ i → rs i = rs' i) : walk W rr body rs n nv st = walk W rr body rs' n nv st := by
  induction n generalizing nv st with
  | zero => rfl
  | succ n ih =>
    simp only [walk, h nv le_rfl]
    cases body nv st (rs' nv) with
    | none => rfl
    | some x =>
      obtain ⟨out, o⟩ := x
      cases o with
      | none => rfl
      | some o =>
        dsimp only
        cases advance W rr nv o (rs' nv) with
        | none => rfl
        | some o =>
          cases o with
          | none => rfl
          | some st' => simp only [ih (nv + 1) st' (fun i hi => h i (by omega))]

theorem withRoulette_tail (rs : ℕ → Rnd) (nv : ℕ) (x : ℝ) (us : List ℝ) (i : ℕ) (h : nv + 1 ≤ i) : withRoulette rs nv (x :: us) i = withRoulette rs (nv + 1) us i := by
  unfold withRoulette
  obtain ⟨j, rfl⟩ : ∃ j, i = nv + 1 + j := ⟨i - (nv + 1), by omega⟩
  have e1 : nv + 1 + j - nv = j + 1 := by omega
  have e2 : nv + 1 + j - (nv + 1) = j := by omega
  rw [e1, e2]
  simp

theorem expect_const (k : ℕ) (a : ℝ) : expect k (fun _ => a) = a := by
  induction k with
  | zero => rfl
  | succ k ih => simp [expect, ih]

theorem expect_congr (k : ℕ) (f g : List ℝ → ℝ) (h : ∀ us, (∀ u ∈ us, u < 1) → f us = g us) : expect k f = expect k g := by
  induction k generalizing f g with
  | zero => exact h [] (by simp)
  | succ k ih =>
    refine setIntegral_congr_fun measurableSet_Ico (fun x hx => ih _ _ (fun us hus => h _ ?_))
    intro u hu
    rcases List.mem_cons.mp hu with rfl | hu
    · exact hx.2
    · exact hus u hu

/-- What a renderer's iteration must satisfy. -/
structure BodyOk (body : ℕ → St → Rnd → Option (List Splat × Option Hop)) : Prop where
  proportional : Proportional body
  nonneg : ∀ nv st r out h, body nv st r = some (out, some h) → NonNeg st.thr → NonNeg h.thr
  noRr : ∀ nv st r x, body nv st { r with rr := x } = body nv st r

theorem nonneg_smul {k : ℝ} {t : V3 ℝ} (hk : 0 ≤ k) (h : NonNeg t) : NonNeg (k • t) := ⟨mul_nonneg hk h.1, mul_nonneg hk h.2.1, mul_nonneg hk h.2.2⟩

/-- The end of an iteration with roulette, from the one without. -/
theorem advance_roulette (W : World) (qmin : ℝ) (h1 : qmin < 1) (nv : ℕ) (h : Hop) (r : Rnd) (o : Option St) (ha : advance W noRoulette nv h r = some o) (u : ℝ) (hu : u < 1) :
    advance W (rouletteAt qmin) nv h { r with rr := u } =
      some (if nv > 5 then (if u < max qmin (1 - compMax h.thr) then none else o.map (St.scale (1 / (1 - max qmin (1 - compMax h.thr))))) else o) := by
  unfold advance noRoulette at *
  dsimp only at *
  cases hi : h.hit.geom.infinite
  · simp only [hi, Bool.false_eq_true, if_false] at ha ⊢
    cases hs : sampleComponent W r.comp h.hit (-h.wo) with
    | none => rw [hs] at ha; simp at ha
    | some s =>
      rw [hs] at ha
      simp only [Option.map_some, Option.some.injEq] at ha
      subst ha
      unfold rouletteAt roulette
      dsimp only
      by_cases hn : nv > 5
      · rw [if_pos hn, if_pos hn]
        by_cases hq : u < max qmin (1 - compMax h.thr)
        · rw [if_pos hq, if_pos hq]
        · rw [if_neg hq, if_neg hq, divV, if_neg (by push Not at hq; linarith)]
          simp only [Option.map_some, St.scale, smul_smul, mul_comm]
      · rw [if_neg hn, if_neg hn]
        rfl
  · simp only [hi, if_true] at ha ⊢
    cases ha
    split_ifs <;> rfl

/-- C53. Roulette in a whole walk never fails: whenever the walk without roulette is defined, so is the walk with it, for all random numbers in [0,1). -/
theorem C53_walk_defined (W : World) (qmin : ℝ) (h1 : qmin < 1) (body) (hb : BodyOk body) (rs : ℕ → Rnd) (us : List ℝ) (hus : ∀ u ∈ us, u < 1) (k nv : ℕ) (st : St) (l : List Splat)
    (hl : walk W noRoulette body rs k nv st = some l) : ∃ l', walk W (rouletteAt qmin) body (withRoulette rs nv us) k nv st = some l' := by
  induction k generalizing nv st l us with
  | zero => exact ⟨[], rfl⟩
  | succ k ih =>
    have hu : us.getD 0 0 < 1 := by
      cases us with
      | nil => simp
      | cons a us => simpa using hus a (by simp)
    have hr : withRoulette rs nv us nv = { rs nv with rr := us.getD 0 0 } := by simp [withRoulette]
    simp only [walk] at hl ⊢
    rw [hr, hb.noRr]
    cases hx : body nv st (rs nv) with
    | none => rw [hx] at hl; simp at hl
    | some x =>
      obtain ⟨out, h⟩ := x
      cases h with
      | none => exact ⟨out, rfl⟩
      | some h =>
        simp only [hx] at hl ⊢
        cases ha : advance W noRoulette nv h (rs nv) with
        | none => rw [ha] at hl; simp at hl
        | some o =>
          rw [advance_roulette W qmin h1 nv h (rs nv) o ha _ hu]
          have cont : ∀ st', o = some st' → ∀ s : ℝ, ∃ l', (walk W (rouletteAt qmin) body (withRoulette rs nv us) k (nv + 1) (st'.scale s)).map (fun rest => out ++ rest) = some l' := by
            intro st' ho s
            rw [ha, ho] at hl
            simp only [Option.map_eq_some_iff] at hl
            obtain ⟨m, hm, _⟩ := hl
            have hm' : walk W noRoulette body rs k (nv + 1) (st'.scale s) = some (m.map (Splat.scale s)) := by rw [walk_scale W body hb.proportional, hm]; rfl
            obtain ⟨l', hl'⟩ := ih us.tail (fun u hu => hus u (List.mem_of_mem_tail hu)) (nv + 1) _ _ hm'
            refine ⟨out ++ l', ?_⟩
            rw [walk_congr W _ body (withRoulette rs nv us) (withRoulette rs (nv + 1) us.tail), hl']; · rfl
            intro i hi
            cases us with
            | nil => simp [withRoulette]
            | cons a us => exact withRoulette_tail rs nv a us i hi
          have one : ∀ st' : St, st'.scale 1 = st' := by intro st'; simp [St.scale]
          cases o with
          | none => split_ifs <;> exact ⟨out, rfl⟩
          | some st' =>
            split_ifs
            · exact ⟨out, rfl⟩
            · exact cont st' rfl _
            · have := cont st' rfl 1
              rw [one] at this
              exact this

theorem St.scale_zero (st : St) (h : st.thr = 0) : st.scale 0 = st := by
  cases st with
  | mk sp comp wi thr rp =>
    simp only at h
    subst h
    simp [St.scale]

/-- C53. Roulette keeps a whole walk unbiased: over the random numbers used by roulette, the expectation of every linear measurement of all contributions of a sample
    equals its value for the same sample without roulette, for walks of every length. -/
theorem C53_walk_unbiased (W : World) (qmin : ℝ) (h0 : 0 ≤ qmin) (h1 : qmin < 1) (body) (hb : BodyOk body) (hc : ∀ u sp wi c w, sampleComponent W u sp wi = some (c, w) → 0 ≤ w)
    (rs : ℕ → Rnd) (F : ℝ × ℝ → V3 ℝ →ₗ[ℝ] ℝ) (k nv : ℕ) (st : St) (hst : NonNeg st.thr) (l : List Splat) (hl : walk W noRoulette body rs k nv st = some l) :
    expect k (fun us => measure F (walk W (rouletteAt qmin) body (withRoulette rs nv us) k nv st)) = measure F (some l) := by
  have gen : ∀ (k nv : ℕ) (st : St) (l : List Splat) (T : ℝ), NonNeg st.thr → walk W noRoulette body rs k nv st = some l →
      expect k (fun us => T + measure F (walk W (rouletteAt qmin) body (withRoulette rs nv us) k nv st)) = T + measure F (some l) := by
    intro k
    induction k with
    | zero =>
      intro nv st l T _ hl
      simp only [walk, Option.some.injEq] at hl
      subst hl
      rfl
    | succ k ih =>
      intro nv st l T hst hl
      have hr : ∀ x us, withRoulette rs nv (x :: us) nv = { rs nv with rr := x } := by intro x us; simp [withRoulette]
      simp only [expect, walk, hr, hb.noRr]
      simp only [walk] at hl
      cases hx : body nv st (rs nv) with
      | none => rw [hx] at hl; simp at hl
      | some x =>
        obtain ⟨out, h⟩ := x
        cases h with
        | none =>
          rw [hx] at hl
          cases hl
          simp [expect_const]
        | some h =>
          simp only [hx] at hl ⊢
          have hnn := hb.nonneg nv st (rs nv) out h hx hst
          obtain ⟨q0, q1, q2⟩ := threshold_range qmin h0 h1 h.thr hnn
          set q := max qmin (1 - compMax h.thr) with hq
          cases ha : advance W noRoulette nv h (rs nv) with
          | none => rw [ha] at hl; simp at hl
          | some o =>
            rw [ha] at hl
            have adv : ∀ x ∈ Set.Ico (0 : ℝ) 1, advance W (rouletteAt qmin) nv h { rs nv with rr := x } = some (if nv > 5 then (if x < q then none else o.map (St.scale (1 / (1 - q)))) else o) :=
              fun x hx => advance_roulette W qmin h1 nv h (rs nv) o ha x hx.2
            cases o with
            | none =>
              simp only [Option.some.injEq] at hl
              subst hl
              rw [setIntegral_congr_fun (g := fun _ => T + measure F (some out)) measurableSet_Ico ?_]
              · simp
              · intro x hx
                dsimp only
                rw [adv x hx]
                simp only [Option.map_none, ite_self]
                exact expect_const k _
            | some st' =>
              simp only [Option.map_eq_some_iff] at hl
              obtain ⟨m, hm, rfl⟩ := hl
              -- the state after the iteration has nonnegative throughput
              have hst' : NonNeg st'.thr ∧ (h.thr = 0 → st'.thr = 0) := by
                unfold advance noRoulette at ha
                dsimp only at ha
                cases hi : h.hit.geom.infinite
                · simp only [hi, Bool.false_eq_true, if_false] at ha
                  cases hs : sampleComponent W (rs nv).comp h.hit (-h.wo) with
                  | none => rw [hs] at ha; simp at ha
                  | some s =>
                    rw [hs] at ha
                    simp only [Option.map_some, Option.some.injEq] at ha
                    subst ha
                    refine ⟨nonneg_smul (hc _ _ _ s.1 s.2 hs) hnn, fun hz => ?_⟩
                    dsimp only
                    rw [hz, smul_zero]
                · simp [hi] at ha
              have cont : ∀ (x s : ℝ), 0 ≤ s → expect k (fun us => T + measure F ((walk W (rouletteAt qmin) body (withRoulette rs nv (x :: us)) k (nv + 1) (st'.scale s)).map (fun rest => out ++ rest)))
                  = T + measure F (some out) + s * measure F (some m) := by
                intro x s hs
                have hm' : walk W noRoulette body rs k (nv + 1) (st'.scale s) = some (m.map (Splat.scale s)) := by rw [walk_scale W body hb.proportional, hm]; rfl
                have hi := ih (nv + 1) (st'.scale s) _ (T + measure F (some out)) (nonneg_smul hs hst'.1) hm'
                have e : measure F (some (m.map (Splat.scale s))) = s * measure F (some m) := measure_scale F s m
                rw [e] at hi
                rw [← hi]
                refine expect_congr k _ _ (fun us hus => ?_)
                rw [walk_congr W _ body (withRoulette rs nv (x :: us)) (withRoulette rs (nv + 1) us) _ _ _ (fun i hi => withRoulette_tail rs nv x us i hi)]
                obtain ⟨l', hl'⟩ := C53_walk_defined W qmin h1 body hb rs us hus k (nv + 1) _ _ hm'
                rw [hl', Option.map_some, measure_append]
                ring
              have one : st'.scale 1 = st' := by simp [St.scale]
              by_cases hn : nv > 5
              · rw [setIntegral_congr_fun (g := fun x => if x < q then T + measure F (some out) else T + measure F (some out) + 1 / (1 - q) * measure F (some m)) measurableSet_Ico ?_]
                · rw [integral_Ico_eq_integral_Ioo, ← integral_Ioc_eq_integral_Ioo, ← intervalIntegral.integral_of_le zero_le_one, integral_threshold q _ _ q0 q1, measure_append]
                  by_cases hq1 : q = 1
                  · have hz : st'.thr = 0 := hst'.2 (q2 hq1)
                    have hz' : st'.scale 0 = st' := St.scale_zero st' hz
                    have hs := walk_scale W body hb.proportional rs 0 k (nv + 1) st'
                    rw [hz', hm] at hs
                    simp only [Option.map_some, Option.some.injEq] at hs
                    have : measure F (some m) = 0 := by
                      have e := measure_scale F 0 m
                      rw [← hs, zero_mul] at e
                      exact e
                    rw [this, hq1]; ring
                  · have : (1 : ℝ) - q ≠ 0 := fun h => hq1 (by linarith)
                    field_simp
                    ring
                · intro x hx
                  dsimp only
                  rw [adv x hx, if_pos hn]
                  by_cases hxq : x < q
                  · rw [if_pos hxq, if_pos hxq]
                    exact expect_const k (T + measure F (some out))
                  · rw [if_neg hxq, if_neg hxq]
                    exact cont x (1 / (1 - q)) (by have := sub_nonneg.mpr q1; positivity)
              · rw [setIntegral_congr_fun (g := fun _ => T + measure F (some out) + 1 * measure F (some m)) measurableSet_Ico ?_]
                · rw [measure_append]; simp; ring
                · intro x hx
                  dsimp only
                  rw [adv x hx, if_neg hn]
                  have := cont x 1 zero_le_one
                  rw [one] at this
                  exact this
  simpa using gen k nv st l 0 hst hl

/-! ### The renderers -/

theorem smul_mul3 (k : ℝ) (a b : V3 ℝ) : (k • a) * b = k • (a * b) := by ext <;> simp <;> ring

theorem byNee_scale (W : World) (c : Cfg) (nv : ℕ) (st : St) (k : ℝ) : byNee W c nv (st.scale k) = byNee W c nv st := rfl
theorem neeWeight_scale (W : World) (c : Cfg) (st : St) (spL : SI) (woL : V3 ℝ) (k : ℝ) : neeWeight W c (st.scale k) spL woL = neeWeight W c st spL woL := rfl
theorem hitWeight_scale (W : World) (c : Cfg) (b : Bool) (st : St) (wo : V3 ℝ) (spL : SI) (k : ℝ) : hitWeight W c b (st.scale k) wo spL = hitWeight W c b st wo spL := rfl
theorem newRaster_scale (W : World) (nv : ℕ) (st : St) (wo : V3 ℝ) (k : ℝ) : newRaster W nv (st.scale k) wo = newRaster W nv st wo := rfl
theorem volByNee_scale (W : World) (n : Bool) (nv : ℕ) (st : St) (k : ℝ) : volByNee W n nv (st.scale k) = volByNee W n nv st := rfl

open Classical in
theorem neeSplat_scale (W : World) (Q : Query) (c : Cfg) (nv : ℕ) (st : St) (spL : SI) (woL wL : V3 ℝ) (k : ℝ) :
    neeSplat W Q c nv (st.scale k) spL woL wL = (neeSplat W Q c nv st spL woL wL).map (fun l => l.map (Splat.scale k)) := by
  unfold neeSplat
  rw [neeWeight_scale]
  simp only [St.scale]
  by_cases hv : Q.visible st.sp spL = true
  swap
  · simp [hv]
  simp only [hv, Bool.not_true, Bool.false_eq_true, if_false]
  have key : ∀ rp : Option (Option (ℝ × ℝ)), (do
      let rp ← rp
      match rp with
      | none => pure []
      | some rp => do
        let fs ← evalContrbDirection W st.sp st.wi (-woL) st.comp .EL true
        if fs = 0 then pure []
        else do
          let w ← neeWeight W c st spL woL
          pure [(⟨.nee, nv + 1, rp, w • (k • st.thr * fs * wL)⟩ : Splat)] : Option (List Splat)) = (do
      let rp ← rp
      match rp with
      | none => pure []
      | some rp => do
        let fs ← evalContrbDirection W st.sp st.wi (-woL) st.comp .EL true
        if fs = 0 then pure []
        else do
          let w ← neeWeight W c st spL woL
          pure [(⟨.nee, nv + 1, rp, w • (st.thr * fs * wL)⟩ : Splat)] : Option (List Splat)).map (fun l => l.map (Splat.scale k)) := by
    intro rp
    cases rp with
    | none => rfl
    | some rp =>
      cases rp with
      | none => rfl
      | some rp =>
        simp only [Option.bind_eq_bind, Option.bind_some]
        cases evalContrbDirection W st.sp st.wi (-woL) st.comp .EL true with
        | none => rfl
        | some fs =>
          simp only [Option.bind_some]
          split_ifs
          · rfl
          · cases neeWeight W c st spL woL with
            | none => rfl
            | some w => simp only [Option.bind_some, Option.pure_def, Option.map_some, List.map_cons, List.map_nil, Splat.scale, smul_mul3, smul_comm w k]
  split_ifs
  · exact key _
  · exact key _

theorem ptNee_scale (W : World) (Q : Query) (c : Cfg) (nv : ℕ) (st : St) (r : Rnd) (k : ℝ) :
    ptNee W Q c nv (st.scale k) r = (ptNee W Q c nv st r).map (fun l => l.map (Splat.scale k)) := by
  unfold ptNee
  rw [byNee_scale]
  cases byNee W c nv st with
  | none => rfl
  | some b =>
    cases b
    · rfl
    · simp only [Option.bind_eq_bind, Option.bind_some, if_true, neeSplat_scale]
      have e : (st.scale k).sp = st.sp := rfl
      rw [e]
      cases sampleDirect W r.light st.sp .LE <;> rfl

theorem hitSplat_scale (W : World) (c : Cfg) (nv : ℕ) (st : St) (wo thr : V3 ℝ) (rp : ℝ × ℝ) (hit : SI) (k : ℝ) :
    hitSplat W c nv (st.scale k) wo (k • thr) rp hit = (hitSplat W c nv st wo thr rp hit).map (fun l => l.map (Splat.scale k)) := by
  unfold hitSplat
  simp only [byNee_scale, hitWeight_scale]
  have e : (st.scale k).comp = st.comp := rfl
  rw [e]
  cases byNee W c nv st with
  | none => rfl
  | some b =>
    simp only [Option.bind_eq_bind, Option.bind_some]
    split_ifs
    · rfl
    · cases isLight W hit with
      | none => rfl
      | some l =>
        cases l
        · rfl
        · simp only [Option.bind_some, if_true]
          cases evalContrbDirection W (asLight hit) 0 (-wo) st.comp .LE true with
          | none => rfl
          | some fs =>
            simp only [Option.bind_some]
            cases hitWeight W c b st wo (asLight hit) with
            | none => rfl
            | some w => simp only [Option.bind_some, Option.pure_def, Option.map_some, List.map_cons, List.map_nil, Splat.scale, smul_mul3, smul_comm w k]

theorem nonneg_mul {a b : V3 ℝ} (ha : NonNeg a) (hb : NonNeg b) : NonNeg (a * b) := ⟨mul_nonneg ha.1 hb.1, mul_nonneg ha.2.1 hb.2.1, mul_nonneg ha.2.2 hb.2.2⟩

theorem ptBody_ok (W : World) (Q : Query) (c : Cfg) (hw : NonNegWeights W .EL) : BodyOk (ptBody W Q c) where
  proportional := by
    intro k nv st r
    unfold ptBody
    simp only [ptNee_scale, newRaster_scale]
    have e1 : (st.scale k).sp = st.sp := rfl
    have e2 : (st.scale k).wi = st.wi := rfl
    have e3 : (st.scale k).comp = st.comp := rfl
    have e4 : (st.scale k).thr = k • st.thr := rfl
    rw [e1, e2, e3, e4]
    cases ptNee W Q c nv st r with
    | none => rfl
    | some a =>
      simp only [Option.bind_eq_bind, Option.bind_some, Option.map_some]
      cases sampleDirection W r.dir st.sp st.wi st.comp .EL with
      | undef => rfl
      | fail => rfl
      | ok wo w =>
        dsimp only
        cases newRaster W nv st wo with
        | none => rfl
        | some rp =>
          simp only [Option.bind_some]
          cases Q.isect st.sp.geom.p wo with
          | none => rfl
          | some hit =>
            dsimp only
            rw [smul_mul3, hitSplat_scale]
            cases hitSplat W c nv st wo (st.thr * w) rp hit with
            | none => rfl
            | some b => simp [Hop.scale]
  nonneg := by
    intro nv st r out h hb hst
    unfold ptBody at hb
    cases ha : ptNee W Q c nv st r with
    | none => simp [ha] at hb
    | some a =>
      simp only [ha, Option.bind_eq_bind, Option.bind_some] at hb
      cases hd : sampleDirection W r.dir st.sp st.wi st.comp .EL with
      | undef => simp [hd] at hb
      | fail => simp [hd] at hb
      | ok wo w =>
        simp only [hd] at hb
        cases hr : newRaster W nv st wo with
        | none => simp [hr] at hb
        | some rp =>
          simp only [hr, Option.bind_some] at hb
          cases hi : Q.isect st.sp.geom.p wo with
          | none => simp [hi] at hb
          | some hit =>
            simp only [hi] at hb
            cases hs : hitSplat W c nv st wo (st.thr * w) rp hit with
            | none => simp [hs] at hb
            | some b =>
              simp only [hs, Option.bind_some, Option.pure_def, Option.some.injEq, Prod.mk.injEq] at hb
              rw [← hb.2]
              exact nonneg_mul hst (hw.direction _ _ _ _ _ _ hd)
  noRr := fun _ _ _ _ => rfl

theorem volNee_scale (W : World) (Q : VQuery) (n : Bool) (nv : ℕ) (st : St) (r : Rnd) (k : ℝ) :
    volNee W Q n nv (st.scale k) r = (volNee W Q n nv st r).map (fun l => l.map (Splat.scale k)) := by
  unfold volNee
  rw [volByNee_scale]
  simp only [St.scale]
  cases hb : volByNee W n nv st with
  | none => rfl
  | some b =>
    cases b
    · rfl
    · simp only [Option.bind_eq_bind, Option.bind_some, if_true]
      cases sampleDirect W r.light st.sp .LE with
      | undef => rfl
      | fail => rfl
      | ok spL woL wL =>
        have hn : ¬ nv = 1 := by
          intro e
          unfold volByNee at hb
          subst e
          cases n <;> simp at hb
        simp only [if_neg hn, Option.bind_some]
        cases Q.tr nv st.sp spL with
        | none => rfl
        | some tr =>
          simp only [Option.bind_some]
          split_ifs
          · rfl
          · cases evalContrbDirection W st.sp st.wi (-woL) st.comp .EL true with
            | none => rfl
            | some fs =>
              simp only [Option.bind_some]
              split_ifs
              · rfl
              · simp only [Option.pure_def, Option.map_some, List.map_cons, List.map_nil, Splat.scale, smul_mul3]

theorem volHit_scale (W : World) (n : Bool) (nv : ℕ) (st : St) (wo thr : V3 ℝ) (rp : ℝ × ℝ) (hit : SI) (k : ℝ) :
    volHit W n nv (st.scale k) wo (k • thr) rp hit = (volHit W n nv st wo thr rp hit).map (fun l => l.map (Splat.scale k)) := by
  unfold volHit
  rw [volByNee_scale]
  have e : (st.scale k).comp = st.comp := rfl
  rw [e]
  cases volByNee W n nv st with
  | none => rfl
  | some b =>
    cases b
    · simp only [Option.bind_eq_bind, Option.bind_some, Bool.false_eq_true, if_false]
      cases isLight W hit with
      | none => rfl
      | some l =>
        cases l
        · rfl
        · simp only [Option.bind_some, if_true]
          cases evalContrbDirection W (asLight hit) 0 (-wo) st.comp .LE true with
          | none => rfl
          | some fs => simp only [Option.bind_some, Option.pure_def, Option.map_some, List.map_cons, List.map_nil, Splat.scale, smul_mul3]
    · rfl

theorem volBody_ok (W : World) (Q : VQuery) (n : Bool) (hw : NonNegWeights W .EL) (hd : ∀ nv sp wo sp' C, Q.dist nv sp wo = .ok sp' C → NonNeg C) : BodyOk (volBody W Q n) where
  proportional := by
    intro k nv st r
    unfold volBody
    simp only [volNee_scale, newRaster_scale]
    have e1 : (st.scale k).sp = st.sp := rfl
    have e2 : (st.scale k).wi = st.wi := rfl
    have e3 : (st.scale k).comp = st.comp := rfl
    have e4 : (st.scale k).thr = k • st.thr := rfl
    rw [e1, e2, e3, e4]
    cases volNee W Q n nv st r with
    | none => rfl
    | some a =>
      simp only [Option.bind_eq_bind, Option.bind_some, Option.map_some]
      cases sampleDirection W r.dir st.sp st.wi st.comp .EL with
      | undef => rfl
      | fail => rfl
      | ok wo w =>
        dsimp only
        cases newRaster W nv st wo with
        | none => rfl
        | some rp =>
          simp only [Option.bind_some]
          cases Q.dist nv st.sp wo with
          | undef => rfl
          | fail => rfl
          | ok hit wd =>
            dsimp only
            rw [smul_mul3, volHit_scale]
            cases volHit W n nv st wo (st.thr * (w * wd)) rp hit with
            | none => rfl
            | some b => simp [Hop.scale]
  nonneg := by
    intro nv st r out h hb hst
    unfold volBody at hb
    cases ha : volNee W Q n nv st r with
    | none => simp [ha] at hb
    | some a =>
      simp only [ha, Option.bind_eq_bind, Option.bind_some] at hb
      cases hd' : sampleDirection W r.dir st.sp st.wi st.comp .EL with
      | undef => simp [hd'] at hb
      | fail => simp [hd'] at hb
      | ok wo w =>
        simp only [hd'] at hb
        cases hr : newRaster W nv st wo with
        | none => simp [hr] at hb
        | some rp =>
          simp only [hr, Option.bind_some] at hb
          cases hi : Q.dist nv st.sp wo with
          | undef => simp [hi] at hb
          | fail => simp [hi] at hb
          | ok hit wd =>
            simp only [hi] at hb
            cases hs : volHit W n nv st wo (st.thr * (w * wd)) rp hit with
            | none => simp [hs] at hb
            | some b =>
              simp only [hs, Option.bind_some, Option.pure_def, Option.some.injEq, Prod.mk.injEq] at hb
              rw [← hb.2]
              exact nonneg_mul hst (nonneg_mul (hw.direction _ _ _ _ _ _ hd') (hd _ _ _ _ _ hi))
  noRr := fun _ _ _ _ => rfl

theorem ltNee_scale (W : World) (Q : Query) (nv : ℕ) (st : St) (r : Rnd) (k : ℝ) :
    ltNee W Q nv (st.scale k) r = (ltNee W Q nv st r).map (fun l => l.map (Splat.scale k)) := by
  unfold ltNee
  simp only [St.scale]
  cases sampleDirect W r.light st.sp .EL with
  | undef => rfl
  | fail => rfl
  | ok spE woE wE =>
    dsimp only
    by_cases hv : Q.visible st.sp spE = true
    swap
    · simp [hv]
    simp only [hv, Bool.not_true, Bool.false_eq_true, if_false]
    cases rasterAt W woE with
    | none => rfl
    | some rp =>
      cases rp with
      | none => rfl
      | some rp =>
        simp only [Option.bind_eq_bind, Option.bind_some]
        cases evalContrbDirection W st.sp st.wi (-woE) st.comp .LE true with
        | none => rfl
        | some fs => simp only [Option.bind_some, Option.pure_def, Option.map_some, List.map_cons, List.map_nil, Splat.scale, smul_mul3]

theorem ltBody_ok (W : World) (Q : Query) (hw : NonNegWeights W .LE) : BodyOk (ltBody W Q) where
  proportional := by
    intro k nv st r
    unfold ltBody
    simp only [ltNee_scale]
    have e1 : (st.scale k).sp = st.sp := rfl
    have e2 : (st.scale k).wi = st.wi := rfl
    have e3 : (st.scale k).comp = st.comp := rfl
    have e4 : (st.scale k).thr = k • st.thr := rfl
    have e5 : (st.scale k).rp = st.rp := rfl
    rw [e1, e2, e3, e4, e5]
    cases ltNee W Q nv st r with
    | none => rfl
    | some a =>
      simp only [Option.bind_eq_bind, Option.bind_some, Option.map_some]
      cases sampleDirection W r.dir st.sp st.wi st.comp .LE with
      | undef => rfl
      | fail => rfl
      | ok wo w =>
        dsimp only
        cases Q.isect st.sp.geom.p wo with
        | none => rfl
        | some hit => simp [Hop.scale, smul_mul3]
  nonneg := by
    intro nv st r out h hb hst
    unfold ltBody at hb
    cases ha : ltNee W Q nv st r with
    | none => simp [ha] at hb
    | some a =>
      simp only [ha, Option.bind_eq_bind, Option.bind_some] at hb
      cases hd' : sampleDirection W r.dir st.sp st.wi st.comp .LE with
      | undef => simp [hd'] at hb
      | fail => simp [hd'] at hb
      | ok wo w =>
        simp only [hd'] at hb
        cases hi : Q.isect st.sp.geom.p wo with
        | none => simp [hi] at hb
        | some hit =>
          simp only [hi, Option.pure_def, Option.some.injEq, Prod.mk.injEq] at hb
          rw [← hb.2]
          exact nonneg_mul hst (hw.direction _ _ _ _ _ _ hd')
  noRr := fun _ _ _ _ => rfl

/-- C53. renderer::pt in every sampling mode and with every path length limit: roulette does not change the expected value of any pixel.
    `l` are the contributions of the walk without roulette. -/
theorem C53_pt (W : World) (Q : Query) (c : Cfg) (hw : NonNegWeights W .EL) (u : RaySampleU) (uc : ℝ) (rs : ℕ → Rnd) (F : ℝ × ℝ → V3 ℝ →ₗ[ℝ] ℝ) (st : St) (h0 : ptStart W uc u = some st)
    (l : List Splat) (hl : walk W noRoulette (ptBody W Q c) rs (c.maxVerts - 1) 1 st = some l) :
    (∀ us : List ℝ, (∀ x ∈ us, x < 1) → ∃ l', ptSample W Q c u uc (withRoulette rs 1 us) = some l') ∧
    expect (c.maxVerts - 1) (fun us => measure F (ptSample W Q c u uc (withRoulette rs 1 us))) = measure F (some l) := by
  have e : ∀ rs, ptSample W Q c u uc rs = walk W (rouletteAt (2 / 10)) (ptBody W Q c) rs (c.maxVerts - 1) 1 st := by intro rs; simp only [ptSample, h0, Option.bind_eq_bind, Option.bind_some]
  simp only [e]
  have hst : NonNeg st.thr := by
    unfold ptStart at h0
    cases hs : samplePosition W u .EL with
    | undef => simp [hs] at h0
    | fail => simp [hs] at h0
    | ok sp wo w =>
      simp only [hs, Option.map_eq_some_iff] at h0
      obtain ⟨s, h1, rfl⟩ := h0
      refine nonneg_smul (hw.component _ _ _ s.1 s.2 h1) ?_
      unfold samplePosition at hs
      dsimp only at hs
      split at hs
      · cases hs
      · split at hs
        · cases hs
        · simp only [SRes.ok.injEq] at hs
          rw [← hs.2.2]
          simp [NonNeg]
  exact ⟨fun us hus => C53_walk_defined W _ (by norm_num) _ (ptBody_ok W Q c hw) rs us hus _ _ _ l hl,
    C53_walk_unbiased W _ (by norm_num) (by norm_num) _ (ptBody_ok W Q c hw) hw.component rs F _ _ st hst l hl⟩

/-- C53 (partial: rr_prob in [0,1)). renderer::volpt and renderer::volpt_naive. Missing: other values of the rr_prob parameter, see the negation. -/
theorem C53_volpt_partial (W : World) (Q : VQuery) (naive : Bool) (rrProb : ℝ) (h0 : 0 ≤ rrProb) (h1 : rrProb < 1) (maxVerts : ℕ) (hw : NonNegWeights W .EL)
    (hd : ∀ nv sp wo sp' C, Q.dist nv sp wo = .ok sp' C → NonNeg C) (rs : ℕ → Rnd) (F : ℝ × ℝ → V3 ℝ →ₗ[ℝ] ℝ) (st : St) (hst : NonNeg st.thr)
    (l : List Splat) (hl : walk W noRoulette (volBody W Q naive) rs (maxVerts - 1) 1 st = some l) :
    (∀ us : List ℝ, (∀ x ∈ us, x < 1) → ∃ l', walk W (rouletteAt rrProb) (volBody W Q naive) (withRoulette rs 1 us) (maxVerts - 1) 1 st = some l') ∧
    expect (maxVerts - 1) (fun us => measure F (walk W (rouletteAt rrProb) (volBody W Q naive) (withRoulette rs 1 us) (maxVerts - 1) 1 st)) = measure F (some l) :=
  ⟨fun us hus => C53_walk_defined W _ h1 _ (volBody_ok W Q naive hw hd) rs us hus _ _ _ l hl,
    C53_walk_unbiased W _ h0 h1 _ (volBody_ok W Q naive hw hd) hw.component rs F _ _ st hst l hl⟩

/-- C53. renderer::lt. -/
theorem C53_lt (W : World) (Q : Query) (maxVerts : ℕ) (hw : NonNegWeights W .LE) (rs : ℕ → Rnd) (F : ℝ × ℝ → V3 ℝ →ₗ[ℝ] ℝ) (st : St) (hst : NonNeg st.thr)
    (l : List Splat) (hl : walk W noRoulette (ltBody W Q) rs (maxVerts - 2) 2 st = some l) :
    (∀ us : List ℝ, (∀ x ∈ us, x < 1) → ∃ l', walk W (rouletteAt (2 / 10)) (ltBody W Q) (withRoulette rs 2 us) (maxVerts - 2) 2 st = some l') ∧
    expect (maxVerts - 2) (fun us => measure F (walk W (rouletteAt (2 / 10)) (ltBody W Q) (withRoulette rs 2 us) (maxVerts - 2) 2 st)) = measure F (some l) :=
  ⟨fun us hus => C53_walk_defined W _ (by norm_num) _ (ltBody_ok W Q hw) rs us hus _ _ _ l hl,
    C53_walk_unbiased W _ (by norm_num) (by norm_num) _ (ltBody_ok W Q hw) hw.component rs F _ _ st hst l hl⟩

/-- C53, negation for the rr_prob parameter of the volumetric renderers, which is not checked: for rr_prob ≥ 1 no path survives, so every path is lost from the seventh vertex on;
    for rr_prob < 0 and a throughput above 1, every path survives but is scaled down by 1 / (1 - q) < 1. -/
theorem C53_negation_rr_prob (rrProb : ℝ) (t : V3 ℝ) :
    (1 ≤ rrProb → ∀ u < 1, roulette rrProb t u = some none) ∧
    (rrProb < 0 → 1 < compMax t → ∃ k : ℝ, 0 < k ∧ k < 1 ∧ ∀ u, 0 ≤ u → roulette rrProb t u = some (some (k • t))) := by
  constructor
  · intro h u hu
    unfold roulette
    dsimp only
    rw [if_pos (lt_of_lt_of_le hu (le_max_of_le_left h))]
  · intro h ht
    have hq : max rrProb (1 - compMax t) < 0 := max_lt h (by linarith)
    refine ⟨1 / (1 - max rrProb (1 - compMax t)), by apply one_div_pos.mpr; linarith, ?_, fun u hu => ?_⟩
    · rw [div_lt_one (by linarith)]; linarith
    · unfold roulette
      dsimp only
      rw [if_neg (by linarith), divV, if_neg (by linarith)]
      rfl

/-! ### Examples -/

/-- A gray throughput below the threshold: the walk survives with probability 1/2 and is doubled. -/
example : roulette (2 / 10) ⟨1 / 4, 1 / 2, 1 / 8⟩ (3 / 4) = some (some ⟨1 / 2, 1, 1 / 4⟩) ∧ roulette (2 / 10) ⟨1 / 4, 1 / 2, 1 / 8⟩ (1 / 4) = some none := by
  have e : compMax ⟨1 / 4, 1 / 2, 1 / 8⟩ = (1 / 2 : ℝ) := by norm_num [compMax]
  constructor
  · unfold roulette
    simp only [e]
    norm_num [divV]
    ext <;> norm_num
  · unfold roulette
    simp only [e]
    norm_num

/-- A scene with a camera and one glowing, transparent surface, hit by every ray. -/
noncomputable def exGlowOps : List (Scene.Op (Aff ℝ)) :=
  [.createPrimitive ⟨some 0, some 0, some 0, none, none⟩, .createPrimitive ⟨none, none, none, some 0, none⟩, .addChild 0 1, .addChild 0 2]
noncomputable def exGlow : World where
  st := Scene.buildLights (Scene.run (fun _ => false) Scene.reset exGlowOps) [(0, 1), (1, 1), (2, 1)]
  light _ := point (V3.all 1) ⟨0, 0, -1⟩ 0
  material _ := mask
  phase _ := isotropic
  camera _ := exCam
  junk := 0
noncomputable def exGlowHit : SI := ⟨.surface, 1, ⟨false, false, ⟨0, 0, -2⟩, ⟨0, 0, 1⟩, ⟨0, 0, 1⟩, 0, ⟨1, 0, 0⟩, ⟨0, 1, 0⟩⟩⟩
noncomputable def exGlowQ : Query := ⟨fun _ _ => some exGlowHit, fun _ _ => true⟩
noncomputable def exRnd : Rnd := ⟨⟨0, 0, 0, 0, 0, 0⟩, ⟨1 / 2, 1 / 2, 0⟩, 0, 0⟩

theorem exGlow_walk (mv : ℕ) (rs : ℕ → Rnd) (k nv : ℕ) (h : 2 ≤ nv) (st : St) (hs : st.sp = exGlowHit) :
    ∃ l, walk exGlow noRoulette (ptBody exGlow exGlowQ ⟨.naive, true, mv⟩) rs k nv st = some l ∧ l.length = k := by
  induction k generalizing nv st with
  | zero => exact ⟨[], rfl, rfl⟩
  | succ k ih =>
    have hd : sampleDirection exGlow (rs nv).dir st.sp st.wi st.comp .EL = .ok (-st.wi) (shadingNormalCorrection exGlowHit.geom st.wi (-st.wi) .EL • V3.all 1) := by rw [hs]; rfl
    have hb : ptBody exGlow exGlowQ ⟨.naive, true, mv⟩ nv st (rs nv) = some ([⟨.hit, nv + 1, st.rp, (1 : ℝ) • (st.thr * (shadingNormalCorrection exGlowHit.geom st.wi (-st.wi) .EL • V3.all 1) * V3.all 1)⟩],
        some ⟨exGlowHit, -st.wi, st.thr * (shadingNormalCorrection exGlowHit.geom st.wi (-st.wi) .EL • V3.all 1), st.rp⟩) := by
      unfold ptBody
      rw [hd]
      have e : newRaster exGlow nv st (-st.wi) = some st.rp := by simp [newRaster, show nv ≠ 1 by omega]
      dsimp only
      rw [e]
      rfl
    simp only [walk, hb]
    have ha : ∀ hop : Hop, hop.hit = exGlowHit → advance exGlow noRoulette nv hop (rs nv) = some (some ⟨exGlowHit, 0, -hop.wo, (1 : ℝ) • hop.thr, hop.rp⟩) := by
      intro hop hh
      unfold advance
      rw [hh]
      rfl
    rw [ha _ rfl]
    obtain ⟨l, hl, hn⟩ := ih (nv + 1) (by omega) ⟨exGlowHit, 0, - -st.wi, (1 : ℝ) • (st.thr * (shadingNormalCorrection exGlowHit.geom st.wi (-st.wi) .EL • V3.all 1)), st.rp⟩ rfl
    dsimp only
    rw [hl]
    exact ⟨_, rfl, by simp [hn]⟩

theorem exGlow_nonneg : NonNegWeights exGlow .EL where
  direction := by
    intro u sp wi comp wo C h
    unfold sampleDirection at h
    split at h
    · split at h
      · cases h
      · split at h
        · cases h
        · cases h; simp [NonNeg]
    · next hk =>
      cases hL : exGlow.lightAt sp.primitive with
      | none => simp [hL] at h
      | some L =>
        have : L = point (V3.all 1) ⟨0, 0, -1⟩ 0 := by
          simp only [World.lightAt, Option.bind_eq_some_iff, Option.map_eq_some_iff] at hL
          obtain ⟨pr, _, i, _, e⟩ := hL
          exact e.symm
        subst this
        obtain ⟨C', e, hC⟩ := ray_ok sp.geom (MathF.sampleUniformSphere u.ud0 u.ud1) (V3.all 1) pdfSphere pdfSphere_pos
        have : (point (V3.all 1) (⟨0, 0, -1⟩ : V3 ℝ) 0).sampleDirection (toRayU u) sp.geom = Res.ok sp.geom (MathF.sampleUniformSphere u.ud0 u.ud1) C' := e
        simp only [hL, this, DirRes.ok.injEq] at h
        rw [← h.2]
        have hp := pdfSphere_pos
        have a := congrArg V3.x hC
        have b := congrArg V3.y hC
        have c := congrArg V3.z hC
        simp only [V3.smul_x, V3.smul_y, V3.smul_z, V3.all] at a b c
        refine ⟨?_, ?_, ?_⟩
        · by_contra hn; push Not at hn; nlinarith
        · by_contra hn; push Not at hn; nlinarith
        · by_contra hn; push Not at hn; nlinarith
    · next hk =>
      cases hP : exGlow.phaseAt sp.primitive with
      | none => simp [hP] at h
      | some ph =>
        have : ph = isotropic := by
          simp only [World.phaseAt, Option.bind_eq_some_iff, Option.map_eq_some_iff] at hP
          obtain ⟨pr, _, i, _, e⟩ := hP
          exact e.symm
        subst this
        simp only [hP, isotropic, DirRes.ok.injEq] at h
        rw [← h.2]
        simp [NonNeg]
    · next hk =>
      cases hM : exGlow.materialAt sp.primitive with
      | none => simp [hM] at h
      | some m =>
        have : m = mask := by
          simp only [World.materialAt, Option.bind_eq_some_iff, Option.map_eq_some_iff] at hM
          obtain ⟨pr, _, i, _, e⟩ := hM
          exact e.symm
        subst this
        simp only [hM, mask, DirRes.ok.injEq] at h
        rw [← h.2]
        refine nonneg_smul ?_ (by simp [NonNeg])
        unfold shadingNormalCorrection
        dsimp only
        split_ifs <;> simp_all
  component := by
    intro u sp wi c w h
    unfold sampleComponent at h
    split at h
    · cases hM : exGlow.materialAt sp.primitive with
      | none => simp [hM] at h
      | some m =>
        have : m = mask := by
          simp only [World.materialAt, Option.bind_eq_some_iff, Option.map_eq_some_iff] at hM
          obtain ⟨pr, _, i, _, e⟩ := hM
          exact e.symm
        subst this
        simp [hM, mask] at h
        rw [← h.2]; norm_num
    · cases h; norm_num

/-- The hypotheses of C53_pt hold for this scene with every limit on the number of vertices; the sample has one contribution per number of vertices. -/
example (mv : ℕ) : NonNegWeights exGlow .EL ∧ ∃ st l, ptStart exGlow 0 exRnd.light = some st ∧
    walk exGlow noRoulette (ptBody exGlow exGlowQ ⟨.naive, true, mv⟩) (fun _ => exRnd) (mv - 1) 1 st = some l ∧ l.length = mv - 1 := by
  refine ⟨exGlow_nonneg, ⟨⟨.camera, 2, makeDegenerated 0 0⟩, 0, 0, (1 : ℝ) • V3.all 1, (0, 0)⟩, ?_⟩
  have h0 : ptStart exGlow 0 exRnd.light = some ⟨⟨.camera, 2, makeDegenerated 0 0⟩, 0, 0, (1 : ℝ) • V3.all 1, (0, 0)⟩ := rfl
  generalize mv - 1 = k
  cases k with
  | zero => exact ⟨[], h0, rfl, rfl⟩
  | succ k =>
    have hp : exCam.Proper := by
      refine ⟨⟨?_, ?_, ?_, ?_, ?_, ?_, ?_⟩, by norm_num [exCam], by norm_num [exCam]⟩ <;> simp [exCam, V3.dot, V3.cross]
    obtain ⟨d, hd, _, ht⟩ := C47_primary exCam hp (1 / 2) (1 / 2)
    have hr := C47_raster exCam hp d _ _ ht
    rw [if_pos (by norm_num)] at hr
    set st0 : St := ⟨⟨.camera, 2, makeDegenerated 0 0⟩, 0, 0, (1 : ℝ) • V3.all 1, (0, 0)⟩
    have hdir : sampleDirection exGlow exRnd.dir st0.sp st0.wi st0.comp .EL = .ok d (V3.all 1) := by
      have : sampleDirection exGlow exRnd.dir st0.sp st0.wi st0.comp .EL = match primaryRay exCam (1 / 2) (1 / 2) with | none => DirRes.undef | some d => .ok d (V3.all 1) := rfl
      rw [this, hd]
    have hb : ptBody exGlow exGlowQ ⟨.naive, true, mv⟩ 1 st0 exRnd = some ([⟨.hit, 2, (1 / 2, 1 / 2), (1 : ℝ) • (st0.thr * V3.all 1 * V3.all 1)⟩], some ⟨exGlowHit, d, st0.thr * V3.all 1, (1 / 2, 1 / 2)⟩) := by
      unfold ptBody
      rw [hdir]
      have e : newRaster exGlow 1 st0 d = some (1 / 2, 1 / 2) := by
        have : newRaster exGlow 1 st0 d = (some (rasterPosition exCam d)).bind id := rfl
        rw [this, hr]; rfl
      dsimp only
      rw [e]
      rfl
    obtain ⟨l, hl, hn⟩ := exGlow_walk mv (fun _ => exRnd) k 2 le_rfl ⟨exGlowHit, 0, -d, (1 : ℝ) • (st0.thr * V3.all 1), (1 / 2, 1 / 2)⟩ rfl
    refine ⟨⟨.hit, 2, (1 / 2, 1 / 2), (1 : ℝ) • (st0.thr * V3.all 1 * V3.all 1)⟩ :: l, h0, ?_, by simp [hn]⟩
    simp only [walk, hb]
    have : advance exGlow noRoulette 1 ⟨exGlowHit, d, st0.thr * V3.all 1, (1 / 2, 1 / 2)⟩ exRnd = some (some ⟨exGlowHit, 0, -d, (1 : ℝ) • (st0.thr * V3.all 1), (1 / 2, 1 / 2)⟩) := rfl
    rw [this]
    dsimp only
    rw [hl]
    rfl

end LM.Render
