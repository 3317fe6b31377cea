import Verif.Spec.Medium
import Verif.Props.C84_Core
import Verif.Props.C58_Medium
import Verif.Props.C80_Solid
/-
  C84. Distance sampling and transmittance estimation in media are unbiased.
-/
namespace LM.Tracking
open MeasureTheory LM LM.Solid LM.Volume LM.Bound LM.MathF LM.Material Set
open scoped ENNReal Topology

/-! ### Averages -/

theorem uniform1_prob : uniform1 univ = 1 := by unfold uniform1; simp
theorem mean_const (n : ℕ) (v : ℝ≥0∞) : mean n (fun _ => v) = v := by
  induction n with
  | zero => rfl
  | succ n ih => simp only [mean, ih, lintegral_const, uniform1_prob, mul_one]
theorem mean_mono (n : ℕ) : ∀ {f g : List ℝ → ℝ≥0∞}, (∀ us, f us ≤ g us) → mean n f ≤ mean n g := by
  induction n with
  | zero => intro f g h; exact h []
  | succ n ih => intro f g h; exact lintegral_mono fun u => ih fun us => h _
theorem mean_const_mul (n : ℕ) (a : ℝ≥0∞) (ha : a ≠ ⊤) : ∀ f : List ℝ → ℝ≥0∞, mean n (fun us => a * f us) = a * mean n f := by
  induction n with
  | zero => intro f; rfl
  | succ n ih => intro f; simp only [mean, ih]; rw [lintegral_const_mul' _ _ ha]
theorem mean_step (n : ℕ) : ∀ {f : List ℝ → ℝ≥0∞}, (∀ us u, f us ≤ f (us ++ [u])) → mean n f ≤ mean (n + 1) f := by
  induction n with
  | zero =>
    intro f h
    calc f [] = ∫⁻ _, f [] ∂uniform1 := by rw [lintegral_const, uniform1_prob, mul_one]
      _ ≤ _ := lintegral_mono fun u => h [] u
  | succ n ih => intro f h; exact lintegral_mono fun u => ih fun us v => h (u :: us) v

/-- Once finished, more random numbers do not change the outcome. -/
def Steady {α : Type} (loop : List ℝ → Track α) : Prop := ∀ us u, loop us = .more ∨ loop (us ++ [u]) = loop us

theorem Steady.monotone {α : Type} {loop : List ℝ → Track α} (h : Steady loop) (F : α → ℝ≥0∞) : Monotone fun n => mean n fun us => gain F (loop us) :=
  monotone_nat_of_le_succ fun n => mean_step n fun us u => by
    rcases h us u with e | e
    · rw [e]; exact zero_le
    · rw [e]

theorem Steady.expects {α : Type} {loop : List ℝ → Track α} (h : Steady loop) (F : α → ℝ≥0∞) (φ : ℕ → ℕ) (hφ : Filter.Tendsto φ Filter.atTop Filter.atTop) {v : ℝ≥0∞}
    (hv : Filter.Tendsto (fun k => mean (φ k) fun us => gain F (loop us)) Filter.atTop (𝓝 v)) : Expects loop F v := by
  have h1 := tendsto_atTop_iSup (h.monotone F)
  have h2 := h1.comp hφ
  rw [tendsto_nhds_unique hv h2]
  exact h1

theorem delta_steady (density albedo : Vol) (r : RayK ℝ) (inv c : ℝ) (n : ℕ) : ∀ (us : List ℝ), us.length ≤ n → ∀ t u,
    deltaTracking density albedo r inv c t us = .more ∨ deltaTracking density albedo r inv c t (us ++ [u]) = deltaTracking density albedo r inv c t us := by
  induction n using Nat.strong_induction_on with
  | _ n ih =>
    intro us hl t u
    match us, hl with
    | [], _ => left; rw [deltaTracking]
    | u1 :: us, hl =>
      rw [List.cons_append, deltaTracking, deltaTracking]
      by_cases h : t - Real.log (1 - u1) * inv ≥ c
      · right; simp only [h, if_true]
      · simp only [h, if_false]
        cases he : density.evalScalar (r.o + (t - Real.log (1 - u1) * inv) • r.d) with
        | none => right; rfl
        | some d =>
          match us, hl with
          | [], _ => left; rfl
          | u2 :: us, hl =>
            simp only [List.cons_append]
            by_cases h2 : d * inv > u2
            · right; simp only [h2, if_true]
            · simp only [h2, if_false]
              exact ih us.length (by simp at hl; omega) us le_rfl _ u

theorem ratio_steady (density : Vol) (r : RayK ℝ) (inv c : ℝ) (us : List ℝ) : ∀ t tr u,
    ratioTracking density r inv c t tr us = .more ∨ ratioTracking density r inv c t tr (us ++ [u]) = ratioTracking density r inv c t tr us := by
  induction us with
  | nil => intro t tr u; left; rw [ratioTracking]
  | cons u1 us ih =>
    intro t tr u
    rw [List.cons_append, ratioTracking, ratioTracking]
    by_cases h : t - Real.log (1 - u1) * inv ≥ c
    · right; simp only [h, if_true]
    · simp only [h, if_false]
      cases he : density.evalScalar (r.o + (t - Real.log (1 - u1) * inv) • r.d) with
      | none => right; rfl
      | some d => exact ih _ _ u

/-! ### The two loops -/

/-- The extinction along the ray, as the loops see it. -/
structure Seen (v : Vol) (r : RayK ℝ) (M : ℝ) (σ : ℝ → ℝ) : Prop extends Rate M σ where
  val : ∀ t, v.evalScalar (r.o + t • r.d) = some (σ t)

theorem int_lt (a : ℝ) (h0 : 0 ≤ a) (h1 : a ≤ 1) (x y : ℝ≥0∞) : ∫⁻ u, (if a > u then x else y) ∂uniform1 = ENNReal.ofReal a * x + ENNReal.ofReal (1 - a) * y := by
  have e : uniform1 = volume.restrict (Ico 0 a ∪ Ico a 1) := by unfold uniform1; rw [Ico_union_Ico_eq_Ico h0 h1]
  rw [e, lintegral_union measurableSet_Ico (by rw [disjoint_left]; rintro s hs hs'; exact absurd hs.2 (not_lt.mpr hs'.1))]
  rw [setLIntegral_congr_fun measurableSet_Ico (g := fun _ => x) (fun u hu => if_pos hu.2), setLIntegral_congr_fun measurableSet_Ico (g := fun _ => y) (fun u hu => if_neg (not_lt.mpr hu.1))]
  simp only [setLIntegral_const, Real.volume_Ico, sub_zero]
  rw [mul_comm x, mul_comm y]

theorem delta_expects (density albedo : Vol) (r : RayK ℝ) (M c t : ℝ) (hM : 0 < M) (ht : t ≤ c) (σ : ℝ → ℝ) (h : Seen density r M σ)
    (F : Option (V3 ℝ × V3 ℝ) → ℝ≥0∞) (X : ℝ → ℝ≥0∞) (hX : Measurable X)
    (ha : ∀ t, 0 < σ t → ∃ C, albedo.evalColor (r.o + t • r.d) = some C ∧ F (some (r.o + t • r.d, C)) = X t) :
    Expects (deltaTracking density albedo r (1 / M) c t) F (limit c σ (F none) X t) := by
  have hs : Steady (deltaTracking density albedo r (1 / M) c t) := fun us u => delta_steady density albedo r (1 / M) c _ us le_rfl t u
  have key : ∀ k t, t ≤ c → mean (2 * k) (fun us => gain F (deltaTracking density albedo r (1 / M) c t us)) = series M c σ (F none) X k t := by
    refine fun k => loop_series hM h.toRate (F none) X hX (fun k t => mean (2 * k) (fun us => gain F (deltaTracking density albedo r (1 / M) c t us))) ?_ ?_ k
    · intro t; simp only [mul_zero, mean]; rw [deltaTracking]; rfl
    · intro k t
      rw [show 2 * (k + 1) = 2 * k + 1 + 1 by ring]
      simp only [mean]
      refine lintegral_congr fun u1 => ?_
      generalize hv : t - Real.log (1 - u1) * (1 / M) = v
      by_cases hc : v ≥ c
      · rw [if_pos hc]
        have : ∀ u2 us, deltaTracking density albedo r (1 / M) c t (u1 :: u2 :: us) = .done none := by
          intro u2 us; rw [deltaTracking]; simp only [hv, hc, if_true]
        simp only [this, gain, mean_const, lintegral_const, uniform1_prob, mul_one]
      · rw [if_neg hc]
        have s0 := h.nonneg v
        have s1 : σ v / M ≤ 1 := (div_le_one hM).mpr (h.le v)
        rw [← int_lt _ (div_nonneg s0 hM.le) s1]
        refine lintegral_congr_ae ?_
        have hpos : ∀ᵐ u ∂uniform1, 0 ≤ u := by
          unfold uniform1
          exact (ae_restrict_iff' measurableSet_Ico).mpr (Filter.Eventually.of_forall fun u hu => hu.1)
        refine hpos.mono fun u2 hu2 => ?_
        have e : ∀ us, deltaTracking density albedo r (1 / M) c t (u1 :: u2 :: us) = if σ v * (1 / M) > u2 then
            (match albedo.evalColor (r.o + v • r.d) with | none => .undef | some C => .done (some (r.o + v • r.d, C))) else deltaTracking density albedo r (1 / M) c v us := by
          intro us; rw [deltaTracking]; simp only [hv, hc, if_false, h.val]
          cases albedo.evalColor (r.o + v • r.d) <;> rfl
        simp only [e]
        rw [mul_one_div]
        by_cases h2 : σ v / M > u2
        · have : 0 < σ v := by
            rcases eq_or_lt_of_le s0 with h' | h'
            · rw [← h', zero_div] at h2; linarith
            · exact h'
          obtain ⟨C, hC, hF⟩ := ha v this
          simp only [h2, if_true, hC, gain, hF, mean_const]
        · simp only [h2, if_false]
  exact hs.expects F (fun k => 2 * k) (Filter.tendsto_atTop_mono (fun k => by simp only [id]; omega) Filter.tendsto_id) ((series_tendsto h.toRate (F none) X hX (c := c) t).congr fun k => (key k t ht).symm)

theorem ratio_cons (density : Vol) (r : RayK ℝ) (M c t tr u1 : ℝ) (us : List ℝ) (σ : ℝ → ℝ) (h : Seen density r M σ) :
    ratioTracking density r (1 / M) c t tr (u1 :: us) = if t - Real.log (1 - u1) * (1 / M) ≥ c then .done tr else
      ratioTracking density r (1 / M) c (t - Real.log (1 - u1) * (1 / M)) (tr * (1 - σ (t - Real.log (1 - u1) * (1 / M)) / M)) us := by
  rw [ratioTracking]
  simp only [h.val, mul_one_div]

theorem ratio_scale (density : Vol) (r : RayK ℝ) (M c : ℝ) (hM : 0 < M) (σ : ℝ → ℝ) (h : Seen density r M σ) (n : ℕ) : ∀ (t tr : ℝ), 0 ≤ tr →
    mean n (fun us => gain ENNReal.ofReal (ratioTracking density r (1 / M) c t tr us)) = ENNReal.ofReal tr * mean n (fun us => gain ENNReal.ofReal (ratioTracking density r (1 / M) c t 1 us)) := by
  induction n with
  | zero => intro t tr _; simp only [mean, ratioTracking, gain, mul_zero]
  | succ n ih =>
    intro t tr htr
    simp only [mean]
    rw [← lintegral_const_mul' _ _ ENNReal.ofReal_ne_top]
    refine lintegral_congr fun u1 => ?_
    simp only [ratio_cons density r M c _ _ _ _ σ h]
    generalize t - Real.log (1 - u1) * (1 / M) = v
    by_cases hc : v ≥ c
    · simp only [hc, if_true, gain, mean_const, ENNReal.ofReal_one, mul_one]
    · simp only [hc, if_false]
      have s1 : 0 ≤ 1 - σ v / M := sub_nonneg.mpr ((div_le_one hM).mpr (h.le v))
      rw [ih v (tr * (1 - σ v / M)) (mul_nonneg htr s1), ih v (1 * (1 - σ v / M)) (mul_nonneg zero_le_one s1), ← mul_assoc, ← ENNReal.ofReal_mul htr, one_mul]

theorem ratio_expects (density : Vol) (r : RayK ℝ) (M c t : ℝ) (hM : 0 < M) (ht : t ≤ c) (σ : ℝ → ℝ) (h : Seen density r M σ) :
    Expects (ratioTracking density r (1 / M) c t 1) ENNReal.ofReal (ENNReal.ofReal (Real.exp (-∫ x in t..c, σ x))) ∧
    Expects (ratioTracking density r (1 / M) c t 1) (fun _ => 1) 1 := by
  have hs : Steady (ratioTracking density r (1 / M) c t 1) := fun us u => ratio_steady density r (1 / M) c us t 1 u
  constructor
  · have key := fun k => loop_series hM h.toRate 1 (fun _ => 0) measurable_const (c := c) (fun k t => mean k (fun us => gain ENNReal.ofReal (ratioTracking density r (1 / M) c t 1 us)))
      (fun t => by simp only [mean, ratioTracking, gain]) (fun k t => by
        simp only [mean, ratio_cons density r M c _ _ _ _ σ h]
        refine lintegral_congr fun u1 => ?_
        generalize t - Real.log (1 - u1) * (1 / M) = v
        by_cases hc : v ≥ c
        · simp only [hc, if_true, gain, mean_const, ENNReal.ofReal_one]
        · simp only [hc, if_false, mul_zero, zero_add, one_mul]
          exact ratio_scale density r M c hM σ h k v _ (sub_nonneg.mpr ((div_le_one hM).mpr (h.le v)))) k
    have lim := series_tendsto h.toRate 1 (fun _ => 0) measurable_const (c := c) t
    have e : limit c σ 1 (fun _ => 0) t = ENNReal.ofReal (Real.exp (-∫ x in t..c, σ x)) := by simp [limit]
    rw [e] at lim
    exact hs.expects _ id Filter.tendsto_id (lim.congr fun k => (key k t ht).symm)
  · have hz : Rate M (fun _ => (0 : ℝ)) := ⟨measurable_const, fun _ => le_rfl, fun _ => hM.le⟩
    have any : ∀ k t tr tr', mean k (fun us => gain (fun _ => 1) (ratioTracking density r (1 / M) c t tr us)) = mean k (fun us => gain (fun _ => 1) (ratioTracking density r (1 / M) c t tr' us)) := by
      intro k
      induction k with
      | zero => intro t tr tr'; simp only [mean, ratioTracking]
      | succ k ih =>
        intro t tr tr'
        simp only [mean, ratio_cons density r M c _ _ _ _ σ h]
        refine lintegral_congr fun u1 => ?_
        generalize t - Real.log (1 - u1) * (1 / M) = v
        by_cases hc : v ≥ c
        · simp only [hc, if_true, gain]
        · simp only [hc, if_false]; exact ih _ _ _
    have key := fun k => loop_series hM hz 1 (fun _ => 0) measurable_const (c := c) (fun k t => mean k (fun us => gain (fun _ => 1) (ratioTracking density r (1 / M) c t 1 us)))
      (fun t => by simp only [mean, ratioTracking, gain]) (fun k t => by
        simp only [mean, ratio_cons density r M c _ _ _ _ σ h]
        refine lintegral_congr fun u1 => ?_
        generalize t - Real.log (1 - u1) * (1 / M) = v
        by_cases hc : v ≥ c
        · simp only [hc, if_true, gain, mean_const]
        · simp only [hc, if_false, mul_zero, zero_add, one_mul, zero_div, sub_zero, ENNReal.ofReal_one]
          exact any k v _ _) k
    have lim := series_tendsto hz 1 (fun _ => 0) measurable_const (c := c) t
    have e : limit c (fun _ => 0) 1 (fun _ => 0) t = 1 := by simp [limit]
    rw [e] at lim
    exact hs.expects _ id Filter.tendsto_id (lim.congr fun k => (key k t ht).symm)

/-- The loop value with w = X = 1: the probability that the loop has ended. -/
noncomputable def ended (M c : ℝ) (σ : ℝ → ℝ) : ℕ → ℝ → ℝ≥0∞
  | 0, _ => 0
  | k + 1, t => ∫⁻ u, (if t - Real.log (1 - u) * (1 / M) ≥ c then 1 else
      ENNReal.ofReal (σ (t - Real.log (1 - u) * (1 / M)) / M) * 1 +
      ENNReal.ofReal (1 - σ (t - Real.log (1 - u) * (1 / M)) / M) * ended M c σ k (t - Real.log (1 - u) * (1 / M))) ∂uniform1

/-- The first-collision density and the transmittance add up to one. -/
theorem limit_one {M c : ℝ} {σ : ℝ → ℝ} (hM : 0 < M) (h : Rate M σ) (t : ℝ) (ht : t ≤ c) : limit c σ 1 (fun _ => 1) t = 1 := by
  have hz : Rate M (fun _ => (0 : ℝ)) := ⟨measurable_const, fun _ => le_rfl, fun _ => hM.le⟩
  have split : ∀ v, (1 : ℝ≥0∞) = ENNReal.ofReal (σ v / M) + ENNReal.ofReal (1 - σ v / M) := fun v => by
    rw [← ENNReal.ofReal_add (div_nonneg (h.nonneg v) hM.le) (sub_nonneg.mpr ((div_le_one hM).mpr (h.le v)))]; simp
  have le1 : ∀ k t, ended M c σ k t ≤ 1 := by
    intro k
    induction k with
    | zero => intro t; exact zero_le
    | succ k ih =>
      intro t
      rw [ended]
      calc _ ≤ ∫⁻ _, 1 ∂uniform1 := lintegral_mono fun u => ?_
        _ = 1 := by rw [lintegral_const, uniform1_prob, mul_one]
      simp only
      generalize t - Real.log (1 - u) * (1 / M) = v
      split_ifs
      · exact le_rfl
      · conv_rhs => rw [split v]
        rw [mul_one]
        exact add_le_add le_rfl (mul_le_of_le_one_right' (ih v))
  have ge : ∀ k t, ended M c (fun _ => 0) k t ≤ ended M c σ k t := by
    intro k
    induction k with
    | zero => intro t; exact le_rfl
    | succ k ih =>
      intro t
      rw [ended, ended]
      refine lintegral_mono fun u => ?_
      simp only
      generalize t - Real.log (1 - u) * (1 / M) = v
      split_ifs
      · exact le_rfl
      · simp only [zero_div, ENNReal.ofReal_zero, zero_mul, zero_add, sub_zero, ENNReal.ofReal_one, one_mul, mul_one]
        calc ended M c (fun _ => 0) k v ≤ ended M c σ k v := ih v
          _ = (ENNReal.ofReal (σ v / M) + ENNReal.ofReal (1 - σ v / M)) * ended M c σ k v := by rw [← split v, one_mul]
          _ = ENNReal.ofReal (σ v / M) * ended M c σ k v + ENNReal.ofReal (1 - σ v / M) * ended M c σ k v := add_mul _ _ _
          _ ≤ _ := add_le_add (mul_le_of_le_one_right' (le1 k v)) le_rfl
  have l1 := (series_tendsto h 1 (fun _ => 1) measurable_const (c := c) t).congr fun k => (loop_series hM h 1 (fun _ => 1) measurable_const (ended M c σ) (fun _ => rfl) (fun k t => by rw [ended]) k t ht).symm
  have l0 := (series_tendsto hz 1 (fun _ => 1) measurable_const (c := c) t).congr fun k => (loop_series hM hz 1 (fun _ => 1) measurable_const (ended M c fun _ => 0) (fun _ => rfl) (fun k t => by rw [ended]) k t ht).symm
  have e : limit c (fun _ => (0 : ℝ)) 1 (fun _ => 1) t = 1 := by simp [limit]
  rw [e] at l0
  exact le_antisymm (le_of_tendsto' l1 fun k => le1 k t) (le_of_tendsto_of_tendsto' l0 l1 fun k => ge k t)

/-! ### The media -/

theorem inside_chord (b : Box ℝ) (r : RayK ℝ) (tmin tmax : ℝ) : inside b r.o r.d tmin tmax = Chord b r tmin tmax := by
  ext t
  simp only [inside, Chord, In, mem_ofPred_eq, V3.add_x, V3.add_y, V3.add_z, V3.smul_x, V3.smul_y, V3.smul_z]
  tauto

theorem radiance_none (b : Box ℝ) (σ a : ℝ → ℝ) (o d : V3 ℝ) (tmin tmax : ℝ) (L : V3 ℝ → ℝ≥0∞) (w : ℝ≥0∞) (h : inside b o d tmin tmax = ∅) :
    radiance b σ a o d tmin tmax L w = w ∧ transmittance b σ o d tmin tmax = 1 := by
  simp [radiance, transmittance, h]

theorem inside_sub (b : Box ℝ) (o d : V3 ℝ) (tmin tmax a c t : ℝ) (h : inside b o d tmin tmax = Icc a c) (ht : t ∈ Icc a c) : inside b o d tmin t = Icc a t := by
  have htm := h ▸ ht
  ext x
  have hx : x ∈ inside b o d tmin tmax ↔ x ∈ Icc a c := by rw [h]
  simp only [inside, mem_ofPred_eq, mem_Icc] at hx htm ⊢
  constructor
  · rintro ⟨h1, h2, h3⟩
    exact ⟨(hx.mp ⟨h1, h2.trans htm.2.1, h3⟩).1, h2⟩
  · rintro ⟨h1, h2⟩
    have := hx.mpr ⟨h1, h2.trans ht.2⟩
    exact ⟨this.1, h2, this.2.2⟩

theorem transmittance_icc (b : Box ℝ) (σ : ℝ → ℝ) (o d : V3 ℝ) (tmin tmax a c : ℝ) (hac : a ≤ c) (h : inside b o d tmin tmax = Icc a c) :
    transmittance b σ o d tmin tmax = Real.exp (-∫ x in a..c, σ x) := by
  rw [transmittance, h, integral_Icc_eq_integral_Ioc, ← intervalIntegral.integral_of_le hac]

theorem radiance_icc (b : Box ℝ) (σ α : ℝ → ℝ) (o d : V3 ℝ) (tmin tmax a c : ℝ) (hac : a ≤ c) (h : inside b o d tmin tmax = Icc a c) (L : V3 ℝ → ℝ≥0∞) (w : ℝ≥0∞)
    (hσ : ∀ t, 0 ≤ σ t) : radiance b σ α o d tmin tmax L w = limit c σ w (fun t => ENNReal.ofReal (α t) * L (o + t • d)) a := by
  rw [radiance, transmittance_icc b σ o d tmin tmax a c hac h, limit, add_comm, h]
  congr 1
  rw [setLIntegral_congr (Ico_ae_eq_Icc (μ := volume) (a := a) (b := c)).symm]
  refine setLIntegral_congr_fun measurableSet_Ico fun t ht => ?_
  have ht' : t ∈ Icc a c := ⟨ht.1, ht.2.le⟩
  rw [transmittance_icc b σ o d tmin t a t ht.1 (inside_sub b o d tmin tmax a c t h ht')]
  rw [ENNReal.ofReal_mul (mul_nonneg (hσ t) (Real.exp_pos _).le), mul_assoc]

theorem measurable_ray (o d : V3 ℝ) : Measurable fun t : ℝ => o + t • d :=
  measurable_mk (by simp only [V3.add_x, V3.smul_x]; fun_prop) (by simp only [V3.add_y, V3.smul_y]; fun_prop) (by simp only [V3.add_z, V3.smul_z]; fun_prop)

theorem seen {v : Vol} (hd : Majorized v) {r : RayK ℝ} {σ : ℝ → ℝ} (hm : Measurable σ) (hσ : ∀ t, v.evalScalar (r.o + t • r.d) = some (σ t)) {M : ℝ} (hM : v.maxScalar = some M) : Seen v r M σ := by
  obtain ⟨_, M', hM', _, hv⟩ := hd
  have e : M' = M := by rw [hM] at hM'; exact (Option.some.inj hM').symm
  have hb : ∀ t, 0 ≤ σ t ∧ σ t ≤ M := by
    intro t
    obtain ⟨d, h1, h2, h3⟩ := hv (r.o + t • r.d)
    rw [hσ t] at h1
    cases h1
    exact ⟨h2, e ▸ h3⟩
  exact ⟨⟨hm, fun t => (hb t).1, fun t => (hb t).2⟩, hσ⟩

/-- C84. Ratio tracking in a heterogeneous medium: the loop ends with probability one, and the expected value of the estimate is the transmittance exp(-∫σ) of the part of the ray inside
    the bound of the medium, whatever the density, as long as its announced maximum is one. Missing: rays running inside a face plane of the bound (C58_negation_graze), and media whose maximum density is zero, for which the code divides by zero (see `C84_empty_partial`). -/
theorem C84_ratio_partial (density : Vol) (r : RayK ℝ) (tmin tmax : ℝ) (hg : NoGraze density.bound r) (hd : Majorized density) (hpos : density.maxScalar ≠ some 0)
    (σ : ℝ → ℝ) (hm : Measurable σ) (hσ : ∀ t, density.evalScalar (r.o + t • r.d) = some (σ t)) (i : Fin 3) :
    Expects (heterogeneousTransmittance density r tmin tmax) (fun T => ENNReal.ofReal (chan i T)) (ENNReal.ofReal (transmittance density.bound σ r.o r.d tmin tmax)) ∧
    Expects (heterogeneousTransmittance density r tmin tmax) (fun _ => 1) 1 := by
  obtain ⟨_, M, hM, M0, _⟩ := id hd
  have Mp : 0 < M := lt_of_le_of_ne M0 (fun e => hpos (by rw [hM, ← e]))
  have hs := seen hd hm hσ hM
  have hinv : density.maxScalar.bind (fun m => divF 1 m) = some (1 / M) := by rw [hM]; simp [divF, Mp.ne']
  have hchan : ∀ x, chan i (V3.all x) = x := fun x => by fin_cases i <;> rfl
  rcases chord_cases density.bound r tmin tmax hg with ⟨e, h⟩ | ⟨a, c, e, hac, h⟩
  · rw [← inside_chord] at h
    have he : heterogeneousTransmittance density r tmin tmax = fun _ => .done (V3.all 1) := by funext us; simp only [heterogeneousTransmittance, e]
    rw [(radiance_none density.bound σ σ r.o r.d tmin tmax (fun _ => 0) 0 h).2, he]
    simp only [Expects, gain, mean_const, hchan]
    exact ⟨tendsto_const_nhds, tendsto_const_nhds⟩
  · rw [← inside_chord] at h
    have he : ∀ (F : V3 ℝ → ℝ≥0∞) us, gain F (heterogeneousTransmittance density r tmin tmax us) = gain (fun x => F (V3.all x)) (ratioTracking density r (1 / M) c a 1 us) := by
      intro F us
      simp only [heterogeneousTransmittance, e, hinv]
      cases ratioTracking density r (1 / M) c a 1 us <;> rfl
    obtain ⟨h1, h2⟩ := ratio_expects density r M c a Mp hac σ hs
    rw [transmittance_icc _ _ _ _ _ _ a c hac h]
    simp only [Expects, he, hchan]
    exact ⟨h1, h2⟩

/-- C84. Delta tracking in a heterogeneous medium: the loop ends with probability one, and with the weights it returns, the distances it samples give an unbiased estimate of the volume
    rendering equation, for whatever light is scattered inside the medium (L) or arrives from behind it (w). Missing: rays running inside a face plane of the bound (C58_negation_graze), and media whose maximum density is zero, for which the code divides by zero (see `C84_empty_partial`). -/
theorem C84_delta_partial (density albedo : Vol) (r : RayK ℝ) (tmin tmax : ℝ) (hg : NoGraze density.bound r) (hd : Majorized density) (hpos : density.maxScalar ≠ some 0)
    (σ α : ℝ → ℝ) (hm : Measurable σ) (hσ : ∀ t, density.evalScalar (r.o + t • r.d) = some (σ t)) (i : Fin 3) (hα : Measurable α)
    (ha : ∀ t, 0 < σ t → ∃ C, albedo.evalColor (r.o + t • r.d) = some C ∧ chan i C = α t) (L : V3 ℝ → ℝ≥0∞) (hL : Measurable L) (w : ℝ≥0∞) :
    Expects (heterogeneousDistance density albedo r tmin tmax) (along i L w) (radiance density.bound σ α r.o r.d tmin tmax L w) ∧
    Expects (heterogeneousDistance density albedo r tmin tmax) (fun _ => 1) 1 := by
  obtain ⟨_, M, hM, M0, _⟩ := id hd
  have Mp : 0 < M := lt_of_le_of_ne M0 (fun e => hpos (by rw [hM, ← e]))
  have hs := seen hd hm hσ hM
  have hinv : density.maxScalar.bind (fun m => divF 1 m) = some (1 / M) := by rw [hM]; simp [divF, Mp.ne']
  rcases chord_cases density.bound r tmin tmax hg with ⟨e, h⟩ | ⟨a, c, e, hac, h⟩
  · rw [← inside_chord] at h
    have he : heterogeneousDistance density albedo r tmin tmax = fun _ => .done .none := by funext us; simp only [heterogeneousDistance, e]
    rw [(radiance_none density.bound σ α r.o r.d tmin tmax L w h).1, he]
    simp only [Expects, gain, mean_const, along]
    exact ⟨tendsto_const_nhds, tendsto_const_nhds⟩
  · rw [← inside_chord] at h
    let conv : Option (V3 ℝ × V3 ℝ) → DistRes := fun o => match o with | none => .none | some (p, C) => .ok p C true
    have he : ∀ (F : DistRes → ℝ≥0∞) us, gain F (heterogeneousDistance density albedo r tmin tmax us) = gain (fun o => F (conv o)) (deltaTracking density albedo r (1 / M) c a us) := by
      intro F us
      simp only [heterogeneousDistance, e, hinv]
      rcases deltaTracking density albedo r (1 / M) c a us with _ | _ | (_ | ⟨p, C⟩) <;> rfl
    have h1 := delta_expects density albedo r M c a Mp hac σ hs (fun o => along i L w (conv o)) (fun t => ENNReal.ofReal (α t) * L (r.o + t • r.d))
      (hα.ennreal_ofReal.mul (hL.comp (measurable_ray r.o r.d))) (fun t ht => by
        obtain ⟨C, hC, hc⟩ := ha t ht
        exact ⟨C, hC, by simp only [conv, along, hc]⟩)
    have h2 := delta_expects density albedo r M c a Mp hac σ hs (fun _ => 1) (fun _ => 1) measurable_const (fun t ht => by
        obtain ⟨C, hC, _⟩ := ha t ht
        exact ⟨C, hC, rfl⟩)
    rw [limit_one Mp hs.toRate a hac] at h2
    rw [radiance_icc density.bound σ α r.o r.d tmin tmax a c hac h L w hs.nonneg]
    simp only [Expects, he]
    exact ⟨h1, h2⟩

/-- C84. A homogeneous medium: with the weights returned, the sampled distance gives an unbiased estimate of the volume rendering equation, and the transmittance is exact.
    Missing: rays running inside a face plane of the bound (C58_negation_graze). -/
theorem C84_homogeneous_partial (density : ℝ) (albedo : V3 ℝ) (b : Box ℝ) (r : RayK ℝ) (tmin tmax : ℝ) (hd : 0 ≤ density) (hg : NoGraze b r) (i : Fin 3) (L : V3 ℝ → ℝ≥0∞) (w : ℝ≥0∞) :
    ∫⁻ u, along i L w (homogeneousDistance density albedo b r tmin tmax u) ∂uniform1 = radiance b (fun _ => density) (fun _ => chan i albedo) r.o r.d tmin tmax L w ∧
    homogeneousTransmittance density b r tmin tmax = some (V3.all (transmittance b (fun _ => density) r.o r.d tmin tmax)) := by
  have hchan : ∀ x, chan i (V3.all x) = x := fun x => by fin_cases i <;> rfl
  rcases chord_cases b r tmin tmax hg with ⟨e, h⟩ | ⟨a, c, e, hac, h⟩
  · rw [← inside_chord] at h
    obtain ⟨h1, h2⟩ := radiance_none b (fun _ => density) (fun _ => chan i albedo) r.o r.d tmin tmax L w h
    rw [h1, h2]
    simp only [homogeneousDistance, homogeneousTransmittance, e, along, lintegral_const, uniform1_prob, mul_one, and_self]
  · rw [← inside_chord] at h
    rw [radiance_icc b (fun _ => density) (fun _ => chan i albedo) r.o r.d tmin tmax a c hac h L w (fun _ => hd), transmittance_icc b (fun _ => density) r.o r.d tmin tmax a c hac h]
    constructor
    · rcases eq_or_lt_of_le hd with h0 | h0
      · subst h0
        simp [homogeneousDistance, e, along, hchan, uniform1_prob, limit]
      · have e1 : ∀ u, along i L w (homogeneousDistance density albedo b r tmin tmax u) =
            (fun s => if s ≥ c then w else ENNReal.ofReal (chan i albedo) * L (r.o + s • r.d)) (a - Real.log (1 - u) * (1 / density)) := by
          intro u
          simp only [homogeneousDistance, e]
          have ev : a + -Real.log (1 - u) / density = a - Real.log (1 - u) * (1 / density) := by ring
          rw [ev]
          have el : -Real.log (1 - u) / density = (a - Real.log (1 - u) * (1 / density)) - a := by ring
          rw [el]
          generalize a - Real.log (1 - u) * (1 / density) = v
          by_cases hv : v ≥ c
          · rw [if_pos hv, if_neg (by rintro ⟨_, h'⟩; linarith)]; simp only [along, hchan, ENNReal.ofReal_one, one_mul]
          · rw [if_neg hv, if_pos ⟨h0.ne', by linarith⟩]; simp only [along]
        simp_rw [e1]
        rw [exp_law density a h0 (fun s => if s ≥ c then w else ENNReal.ofReal (chan i albedo) * L (r.o + s • r.d))]
        rw [← Ico_union_Ici_eq_Ici hac, lintegral_union measurableSet_Ici (by rw [disjoint_left]; rintro s hs hs'; exact absurd hs.2 (not_lt.mpr hs')), limit, add_comm]
        congr 1
        · rw [intervalIntegral.integral_const, smul_eq_mul, show -((c - a) * density) = -density * (c - a) by ring, ← exp_tail density a c h0, ← lintegral_mul_const _ (by fun_prop)]
          exact setLIntegral_congr_fun measurableSet_Ici fun s hs => by rw [if_pos (mem_Ici.mp hs)]
        · refine setLIntegral_congr_fun measurableSet_Ico fun s hs => ?_
          rw [if_neg (not_le.mpr hs.2), intervalIntegral.integral_const, smul_eq_mul, mul_comm (s - a), neg_mul]
    · simp only [homogeneousTransmittance, e, intervalIntegral.integral_const, smul_eq_mul]
      congr 3; ring

end LM.Tracking
