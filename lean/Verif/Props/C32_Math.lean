import Verif.Model.Math
import Mathlib.Analysis.SpecialFunctions.Complex.Arg
import Mathlib.Tactic.Linarith
import Mathlib.Tactic.NormNum
import Mathlib.Tactic.LinearCombination
import Mathlib.Tactic.FieldSimp
import Mathlib.Tactic.Positivity
namespace LM.MathF
open LM

section Field
variable {K : Type} [Field K] [LinearOrder K] [IsStrictOrderedRing K]

/-- Specification: a right-handed orthonormal frame. -/
def Orthonormal (u v n : V3 K) : Prop :=
  V3.dot u u = 1 ∧ V3.dot v v = 1 ∧ V3.dot n n = 1 ∧ V3.dot u v = 0 ∧ V3.dot u n = 0 ∧ V3.dot v n = 0 ∧ V3.cross u v = n

/-- C32. The basis completes every unit vector to a right-handed orthonormal frame, whatever the sign of its z component (and of a zero z). -/
theorem C32_basis (n : V3 K) (nz : Bool) (h : V3.dot n n = 1) : Orthonormal (orthonormalBasis n nz).1 (orthonormalBasis n nz).2 n := by
  obtain ⟨x, y, z⟩ := n
  simp only [V3.dot] at h
  have key : ∀ s : K, (s = 1 ∧ 0 ≤ z ∨ s = -1 ∧ z ≤ 0) → ∀ a, a = -1 / (s + z) →
      Orthonormal (⟨1 + s * x * x * a, s * (x * y * a), -s * x⟩ : V3 K) ⟨x * y * a, s + y * y * a, -y⟩ ⟨x, y, z⟩ := by
    intro s hs a ha
    have hc : s + z ≠ 0 := by
      rcases hs with ⟨rfl, hz⟩ | ⟨rfl, hz⟩
      · exact ne_of_gt (by linarith)
      · exact ne_of_lt (by linarith)
    have h1 : a * (s + z) = -1 := by rw [ha]; field_simp
    have hs2 : s * s = 1 := by rcases hs with ⟨rfl, _⟩ | ⟨rfl, _⟩ <;> norm_num
    clear ha hc
    have hs' : s = 1 ∨ s = -1 := by rcases hs with ⟨h, _⟩ | ⟨h, _⟩ <;> tauto
    clear hs hs2
    simp only [Orthonormal, V3.dot, V3.cross]
    rcases hs' with rfl | rfl
    · refine ⟨?_, ?_, h, ?_, ?_, ?_, ?_⟩
      · linear_combination (x * x * a * a) * h + (x * x * a * (1 - z) + x * x) * h1
      · linear_combination (y * y * a * a) * h + (y * y * a * (1 - z) + y * y) * h1
      · linear_combination (x * y * a * a) * h + (x * y * a * (1 - z) + x * y) * h1
      · linear_combination (x * a) * h + (x * (1 - z)) * h1
      · linear_combination (y * a) * h + (y * (1 - z)) * h1
      · ext <;> simp only
        · linear_combination (0 : K) * h
        · ring
        · linear_combination a * h + (1 - z) * h1
    · refine ⟨?_, ?_, h, ?_, ?_, ?_, ?_⟩
      · linear_combination (x * x * a * a) * h + (x * x * a * (-1 - z) + x * x) * h1
      · linear_combination (y * y * a * a) * h + (y * y * a * (-1 - z) + y * y) * h1
      · linear_combination (-x * y * a * a) * h - (x * y * a * (-1 - z) + x * y) * h1
      · linear_combination (-x * a) * h - (x * (-1 - z)) * h1
      · linear_combination (y * a) * h + (y * (-1 - z)) * h1
      · ext <;> simp only
        · ring
        · ring
        · linear_combination a * h + (-1 - z) * h1
  unfold orthonormalBasis copysign1
  simp only
  split
  · next hz =>
    refine key (-1) (.inr ⟨rfl, ?_⟩) _ rfl
    rcases hz with hz | ⟨hz, _⟩
    · exact hz.le
    · exact hz.le
  · next hz =>
    refine key 1 (.inl ⟨rfl, ?_⟩) _ rfl
    by_contra hc
    exact hz (.inl (not_le.mp hc))

/-- A frame is an isometry: coordinates in it preserve inner products and the third coordinate is the cosine with the normal. -/
theorem C32_frame (u v n a b : V3 K) (h : Orthonormal u v n) :
    V3.dot (a.x • u + a.y • v + a.z • n) (b.x • u + b.y • v + b.z • n) = V3.dot a b ∧ V3.dot (a.x • u + a.y • v + a.z • n) n = a.z ∧
    V3.dot (a.x • u + a.y • v + a.z • n) u = a.x ∧ V3.dot (a.x • u + a.y • v + a.z • n) v = a.y := by
  obtain ⟨h1, h2, h3, h4, h5, h6, _⟩ := h
  have h4' := h4; have h5' := h5; have h6' := h6
  rw [V3.dot_comm] at h4' h5' h6'
  simp only [V3.dot_add_left, V3.dot_add_right, V3.dot_smul_left, V3.dot_smul_right, h1, h2, h3, h4, h5, h6, h4', h5', h6']
  refine ⟨?_, ?_, ?_, ?_⟩ <;> simp [V3.dot]
  ring

example : V3.dot (⟨0, 0, -1⟩ : V3 ℚ) ⟨0, 0, -1⟩ = 1 ∧ V3.dot (⟨2/3, -1/3, -2/3⟩ : V3 ℚ) ⟨2/3, -1/3, -2/3⟩ = 1 := by norm_num [V3.dot]

/-- C33. Reflection about a unit normal: same length, an involution, the normal component kept and the tangential component reversed. -/
theorem C33_reflection (w n : V3 K) (h : V3.dot n n = 1) :
    V3.dot (reflection w n) (reflection w n) = V3.dot w w ∧ reflection (reflection w n) n = w ∧ V3.dot (reflection w n) n = V3.dot w n ∧
    reflection w n - V3.dot w n • n = -(w - V3.dot w n • n) := by
  have e : V3.dot (reflection w n) n = V3.dot w n := by
    simp only [reflection, V3.dot_sub_left, V3.dot_smul_left, h]; ring
  refine ⟨?_, ?_, e, ?_⟩
  · have : V3.dot (reflection w n) (reflection w n) = V3.dot (reflection w n) ((2 * V3.dot w n) • n - w) := rfl
    rw [this, V3.dot_sub_right, V3.dot_smul_right, e]
    simp only [reflection, V3.dot_sub_left, V3.dot_smul_left, V3.dot_comm n w]
    ring
  · have : reflection (reflection w n) n = (2 * V3.dot (reflection w n) n) • n - reflection w n := rfl
    rw [this, e]
    ext <;> simp [reflection]
  · ext <;> simp [reflection] <;> ring

end Field

theorem safeSqrt_of_nonneg {v : ℝ} (h : 0 ≤ v) : safeSqrt v = Real.sqrt v := by simp [safeSqrt, h]
theorem safeSqrt_nonneg (v : ℝ) : 0 ≤ safeSqrt v := Real.sqrt_nonneg _
theorem safeSqrt_sq {v : ℝ} (h : 0 ≤ v) : safeSqrt v * safeSqrt v = v := by rw [safeSqrt_of_nonneg h, Real.mul_self_sqrt h]

/-- C33. Total internal reflection is reported exactly when no refracted direction exists by Snell's law: eta² sin² ≥ 1. -/
theorem C33_total_iff (wi n : V3 ℝ) (eta : ℝ) : refraction wi n eta = none ↔ 1 ≤ eta ^ 2 * (1 - V3.dot wi n ^ 2) := by
  unfold refraction
  simp only
  constructor
  · intro h; split at h
    · next h' => nlinarith
    · cases h
  · intro h
    rw [if_pos (by nlinarith)]

theorem refraction_some (wi n : V3 ℝ) (eta : ℝ) (wt : V3 ℝ) (h : refraction wi n eta = some wt) :
    0 < 1 - eta * eta * (1 - V3.dot wi n * V3.dot wi n) ∧ wt = eta • (V3.dot wi n • n - wi) - safeSqrt (1 - eta * eta * (1 - V3.dot wi n * V3.dot wi n)) • n := by
  unfold refraction at h
  simp only at h
  split at h
  · cases h
  · next hn => exact ⟨not_le.mp hn, (Option.some.inj h).symm⟩

/-- C33. A refracted direction is a unit vector in the plane spanned by the incident direction and the normal, leaves strictly to the side opposite of the normal
    and obeys Snell's law: its tangential part is the incident one reversed and scaled by eta. -/
theorem C33_snell (wi n : V3 ℝ) (eta : ℝ) (wt : V3 ℝ) (hi : V3.dot wi wi = 1) (hn : V3.dot n n = 1) (h : refraction wi n eta = some wt) :
    V3.dot wt wt = 1 ∧ (∃ a b : ℝ, wt = a • wi + b • n) ∧ V3.dot wt n < 0 ∧ V3.cross n wt = (-eta) • V3.cross n wi := by
  obtain ⟨hp, rfl⟩ := refraction_some wi n eta wt h
  have hs := safeSqrt_sq hp.le
  have hs0 : 0 < safeSqrt (1 - eta * eta * (1 - V3.dot wi n * V3.dot wi n)) := by rw [safeSqrt_of_nonneg hp.le]; exact Real.sqrt_pos.mpr hp
  generalize safeSqrt (1 - eta * eta * (1 - V3.dot wi n * V3.dot wi n)) = q at hs hs0
  refine ⟨?_, ⟨-eta, eta * V3.dot wi n - q, ?_⟩, ?_, ?_⟩
  · simp only [V3.dot_sub_left, V3.dot_sub_right, V3.dot_smul_left, V3.dot_smul_right, hi, hn, V3.dot_comm n wi]
    linear_combination hs
  · ext <;> simp <;> ring
  · simp only [V3.dot_sub_left, V3.dot_smul_left, hn]
    linarith
  · ext <;> simp [V3.cross] <;> ring

/-- C33 (partial). With the incident direction on the side of the normal, the refracted one is on the opposite side, and refracting it back — with the flipped
    normal and the inverse ratio — returns the incident direction. Missing: incident directions behind the normal, where both fail (next theorem). -/
theorem C33_refract_back_partial (wi n : V3 ℝ) (eta : ℝ) (wt : V3 ℝ) (hi : V3.dot wi wi = 1) (hn : V3.dot n n = 1) (he : eta ≠ 0) (hs : 0 < V3.dot wi n)
    (h : refraction wi n eta = some wt) : V3.dot wt n * V3.dot wi n < 0 ∧ refraction wt (-n) (1 / eta) = some wi := by
  obtain ⟨_, _, hlt, _⟩ := C33_snell wi n eta wt hi hn h
  obtain ⟨hp, rfl⟩ := refraction_some wi n eta wt h
  refine ⟨mul_neg_of_neg_of_pos hlt hs, ?_⟩
  have hq := safeSqrt_sq hp.le
  generalize safeSqrt (1 - eta * eta * (1 - V3.dot wi n * V3.dot wi n)) = q at hq
  have e1 : V3.dot (eta • (V3.dot wi n • n - wi) - q • n) (-n) = q := by
    simp only [V3.dot_neg_right, V3.dot_sub_left, V3.dot_smul_left, hn]; ring
  have e2 : 1 - 1 / eta * (1 / eta) * (1 - q * q) = V3.dot wi n * V3.dot wi n := by
    rw [hq]; field_simp; ring
  unfold refraction
  simp only [e1, e2]
  have hpos : 0 < V3.dot wi n * V3.dot wi n := mul_pos hs hs
  rw [if_neg (not_le.mpr hpos)]
  have e3 : safeSqrt (V3.dot wi n * V3.dot wi n) = V3.dot wi n := by
    rw [safeSqrt_of_nonneg hpos.le]; exact Real.sqrt_mul_self hs.le
  rw [e3]
  congr 1
  ext <;> simp <;> field_simp <;> ring

/-- C33, negation. An incident direction behind the normal is "refracted" to its own side, for every such direction without total reflection. -/
theorem C33_negation_backside (wi n : V3 ℝ) (eta : ℝ) (wt : V3 ℝ) (hi : V3.dot wi wi = 1) (hn : V3.dot n n = 1) (hs : V3.dot wi n < 0)
    (h : refraction wi n eta = some wt) : 0 < V3.dot wt n * V3.dot wi n := by
  obtain ⟨_, _, hlt, _⟩ := C33_snell wi n eta wt hi hn h
  exact mul_pos_of_neg_of_neg hlt hs

example : ∃ wt, refraction ⟨0, 0, -1⟩ ⟨0, 0, 1⟩ (1/2) = some wt := by
  unfold refraction; norm_num [V3.dot]
/-- Non-vacuity: oblique incidence, glass. -/
example : V3.dot (⟨3/5, 0, 4/5⟩ : V3 ℝ) ⟨3/5, 0, 4/5⟩ = 1 ∧ 0 < V3.dot (⟨3/5, 0, 4/5⟩ : V3 ℝ) ⟨0, 0, 1⟩ ∧ ∃ wt, refraction ⟨3/5, 0, 4/5⟩ ⟨0, 0, 1⟩ (2/3) = some wt := by
  refine ⟨by norm_num [V3.dot], by norm_num [V3.dot], ?_⟩
  unfold refraction; norm_num [V3.dot]

/-! ### C34 -/

/-- C34. Disk samples lie in the unit disk, at squared radius u0. -/
theorem C34_disk (u0 u1 : ℝ) (h0 : 0 ≤ u0) (h1 : u0 ≤ 1) : (sampleUniformDisk u0 u1).1 ^ 2 + (sampleUniformDisk u0 u1).2 ^ 2 = u0 ∧
    (sampleUniformDisk u0 u1).1 ^ 2 + (sampleUniformDisk u0 u1).2 ^ 2 ≤ 1 := by
  have e : (sampleUniformDisk u0 u1).1 ^ 2 + (sampleUniformDisk u0 u1).2 ^ 2 = u0 := by
    simp only [sampleUniformDisk]
    have := safeSqrt_sq h0
    have t := Real.sin_sq_add_cos_sq (2 * Real.pi * u1)
    linear_combination (safeSqrt u0 * safeSqrt u0) * t + this
  exact ⟨e, by rw [e]; exact h1⟩

/-- Every point of the plane is at its radius and some angle fraction in [0,1). -/
theorem polar (x y : ℝ) : ∃ u1, 0 ≤ u1 ∧ u1 < 1 ∧ x = Real.sqrt (x ^ 2 + y ^ 2) * Real.cos (2 * Real.pi * u1) ∧ y = Real.sqrt (x ^ 2 + y ^ 2) * Real.sin (2 * Real.pi * u1) := by
  have hpi := Real.pi_pos
  have hn : ‖(⟨x, y⟩ : ℂ)‖ = Real.sqrt (x ^ 2 + y ^ 2) := by rw [Complex.norm_def, Complex.normSq_mk]; congr 1; ring
  have hc := Complex.norm_mul_cos_arg (⟨x, y⟩ : ℂ)
  have hs := Complex.norm_mul_sin_arg (⟨x, y⟩ : ℂ)
  have l := Complex.neg_pi_lt_arg (⟨x, y⟩ : ℂ)
  have r := Complex.arg_le_pi (⟨x, y⟩ : ℂ)
  rw [hn] at hc hs
  simp only at hc hs
  generalize Complex.arg (⟨x, y⟩ : ℂ) = t at hc hs l r
  by_cases ht : 0 ≤ t
  · refine ⟨t / (2 * Real.pi), by positivity, by rw [div_lt_one (by positivity)]; linarith, ?_, ?_⟩
    · rw [mul_div_cancel₀ _ (by positivity)]; exact hc.symm
    · rw [mul_div_cancel₀ _ (by positivity)]; exact hs.symm
  · have ht' := not_le.mp ht
    refine ⟨(t + 2 * Real.pi) / (2 * Real.pi), div_nonneg (by linarith) (by positivity), by rw [div_lt_one (by positivity)]; linarith, ?_, ?_⟩
    · rw [mul_div_cancel₀ _ (by positivity), Real.cos_add_two_pi]; exact hc.symm
    · rw [mul_div_cancel₀ _ (by positivity), Real.sin_add_two_pi]; exact hs.symm

/-- C34. Every point of the open disk is sampled. -/
theorem C34_disk_onto (x y : ℝ) (h : x ^ 2 + y ^ 2 < 1) : ∃ u0 u1, (0 ≤ u0 ∧ u0 < 1) ∧ (0 ≤ u1 ∧ u1 < 1) ∧ sampleUniformDisk u0 u1 = (x, y) := by
  obtain ⟨u1, a, b, hx, hy⟩ := polar x y
  refine ⟨x ^ 2 + y ^ 2, u1, ⟨by positivity, h⟩, ⟨a, b⟩, ?_⟩
  simp only [sampleUniformDisk]
  rw [safeSqrt_of_nonneg (by positivity), ← hx, ← hy]

/-- C34. Cosine-weighted samples are unit vectors of the upper hemisphere, strictly above the horizon for u0 < 1; the cosine is sqrt(1 - u0). -/
theorem C34_cosine (u0 u1 : ℝ) (h0 : 0 ≤ u0) (h1 : u0 ≤ 1) : V3.dot (sampleCosineWeighted u0 u1) (sampleCosineWeighted u0 u1) = 1 ∧
    0 ≤ (sampleCosineWeighted u0 u1).z ∧ (u0 < 1 → 0 < (sampleCosineWeighted u0 u1).z) ∧ (sampleCosineWeighted u0 u1).z ^ 2 = 1 - u0 := by
  obtain ⟨e, _⟩ := C34_disk u0 u1 h0 h1
  have ez : (sampleCosineWeighted u0 u1).z = Real.sqrt (1 - u0) := by
    simp only [sampleCosineWeighted]
    have : 1 - safeSqrt u0 * Real.cos (2 * Real.pi * u1) * (safeSqrt u0 * Real.cos (2 * Real.pi * u1)) - safeSqrt u0 * Real.sin (2 * Real.pi * u1) * (safeSqrt u0 * Real.sin (2 * Real.pi * u1)) = 1 - u0 := by
      simp only [sampleUniformDisk] at e
      linear_combination -e
    rw [this, safeSqrt_of_nonneg (by linarith)]
  have hz2 : (sampleCosineWeighted u0 u1).z ^ 2 = 1 - u0 := by rw [ez]; exact Real.sq_sqrt (by linarith)
  refine ⟨?_, by rw [ez]; exact Real.sqrt_nonneg _, fun hlt => by rw [ez]; exact Real.sqrt_pos.mpr (by linarith), hz2⟩
  have ex : (sampleCosineWeighted u0 u1).x = (sampleUniformDisk u0 u1).1 := rfl
  have ey : (sampleCosineWeighted u0 u1).y = (sampleUniformDisk u0 u1).2 := rfl
  simp only [V3.dot, ex, ey]
  linear_combination e + hz2

/-- C34. Every direction strictly above the horizon is sampled by the cosine-weighted map. -/
theorem C34_cosine_onto (w : V3 ℝ) (h : V3.dot w w = 1) (hz : 0 < w.z) : ∃ u0 u1, (0 ≤ u0 ∧ u0 < 1) ∧ (0 ≤ u1 ∧ u1 < 1) ∧ sampleCosineWeighted u0 u1 = w := by
  simp only [V3.dot] at h
  obtain ⟨u0, u1, h0, h1, he⟩ := C34_disk_onto w.x w.y (by nlinarith)
  have ex : (sampleCosineWeighted u0 u1).x = w.x := congrArg Prod.fst he
  have ey : (sampleCosineWeighted u0 u1).y = w.y := congrArg Prod.snd he
  obtain ⟨a, b, _, _⟩ := C34_cosine u0 u1 h0.1 h0.2.le
  refine ⟨u0, u1, h0, h1, ?_⟩
  ext
  · exact ex
  · exact ey
  · simp only [V3.dot, ex, ey] at a
    nlinarith

/-- C34. Sphere samples are unit vectors with z uniform in (-1, 1]. -/
theorem C34_sphere (u0 u1 : ℝ) (h0 : 0 ≤ u0) (h1 : u0 ≤ 1) : V3.dot (sampleUniformSphere u0 u1) (sampleUniformSphere u0 u1) = 1 ∧ (sampleUniformSphere u0 u1).z = 1 - 2 * u0 := by
  refine ⟨?_, rfl⟩
  simp only [sampleUniformSphere, V3.dot]
  have hz : 0 ≤ 1 - (1 - 2 * u0) * (1 - 2 * u0) := by nlinarith
  have := safeSqrt_sq hz
  have t := Real.sin_sq_add_cos_sq (2 * Real.pi * u1)
  linear_combination (safeSqrt (1 - (1 - 2 * u0) * (1 - 2 * u0)) * safeSqrt (1 - (1 - 2 * u0) * (1 - 2 * u0))) * t + this

/-- C34. Every direction but the south pole is sampled by the sphere map. -/
theorem C34_sphere_onto (w : V3 ℝ) (h : V3.dot w w = 1) (hz : w.z ≠ -1) : ∃ u0 u1, (0 ≤ u0 ∧ u0 < 1) ∧ (0 ≤ u1 ∧ u1 < 1) ∧ sampleUniformSphere u0 u1 = w := by
  simp only [V3.dot] at h
  have l : -1 < w.z := lt_of_le_of_ne (by nlinarith) (Ne.symm hz)
  have r : w.z ≤ 1 := by nlinarith
  obtain ⟨u1, a, b, hx, hy⟩ := polar w.x w.y
  refine ⟨(1 - w.z) / 2, u1, ⟨by linarith, by linarith⟩, ⟨a, b⟩, ?_⟩
  have e : 1 - 2 * ((1 - w.z) / 2) = w.z := by ring
  have e2 : 1 - w.z * w.z = w.x ^ 2 + w.y ^ 2 := by linear_combination -h
  have e3 : safeSqrt (1 - w.z * w.z) = Real.sqrt (w.x ^ 2 + w.y ^ 2) := by rw [e2, safeSqrt_of_nonneg (by positivity)]
  ext
  · simp only [sampleUniformSphere, e, e3]; exact hx.symm
  · simp only [sampleUniformSphere, e, e3]; exact hy.symm
  · simp only [sampleUniformSphere, e]

/-- Specification: a point of the triangle abc. -/
def InTriangle (p a b c : V3 ℝ) : Prop := ∃ α β γ : ℝ, 0 ≤ α ∧ 0 ≤ β ∧ 0 ≤ γ ∧ α + β + γ = 1 ∧ p = α • a + β • b + γ • c

/-- C34. Triangle samples lie in the triangle. -/
theorem C34_triangle (a b c : V3 ℝ) (u0 u1 : ℝ) (h0 : 0 ≤ u0) (h1 : u0 ≤ 1) (h2 : 0 ≤ u1) (h3 : u1 ≤ 1) : InTriangle (sampleTriangle a b c u0 u1) a b c := by
  have s0 := safeSqrt_nonneg u0
  have s1 : safeSqrt u0 ≤ 1 := by rw [safeSqrt_of_nonneg h0]; exact Real.sqrt_le_one.mpr h1
  refine ⟨1 - (1 - safeSqrt u0) - u1 * safeSqrt u0, 1 - safeSqrt u0, u1 * safeSqrt u0, ?_, by linarith, by positivity, by ring, rfl⟩
  nlinarith

/-- C34. Every point of the triangle is sampled (over the closed unit square). -/
theorem C34_triangle_onto (a b c p : V3 ℝ) (h : InTriangle p a b c) : ∃ u0 u1, (0 ≤ u0 ∧ u0 ≤ 1) ∧ (0 ≤ u1 ∧ u1 ≤ 1) ∧ sampleTriangle a b c u0 u1 = p := by
  obtain ⟨α, β, γ, ha, hb, hg, hs, rfl⟩ := h
  have hsq : safeSqrt ((1 - β) ^ 2) = 1 - β := by
    rw [safeSqrt_of_nonneg (by positivity)]; exact Real.sqrt_sq (by linarith)
  by_cases h1 : β = 1
  · refine ⟨0, 0, ⟨le_refl _, zero_le_one⟩, ⟨le_refl _, zero_le_one⟩, ?_⟩
    have e0 : safeSqrt 0 = 0 := by simp [safeSqrt]
    have : α = 0 := by linarith
    have : γ = 0 := by linarith
    subst_vars
    ext <;> simp [sampleTriangle, mixBarycentric, e0]
  · have hpos : 0 < 1 - β := lt_of_le_of_ne (by linarith) (fun h => h1 (by linarith))
    refine ⟨(1 - β) ^ 2, γ / (1 - β), ⟨by positivity, by nlinarith⟩, ⟨by positivity, by rw [div_le_one hpos]; linarith⟩, ?_⟩
    have hα : α = 1 - β - γ := by linarith
    subst hα
    simp only [sampleTriangle, hsq, mixBarycentric, div_mul_cancel₀ _ (ne_of_gt hpos)]
    ext <;> simp <;> ring

example : InTriangle ⟨1/3, 1/3, 0⟩ ⟨0, 0, 0⟩ ⟨1, 0, 0⟩ ⟨0, 1, 0⟩ :=
  ⟨1/3, 1/3, 1/3, by norm_num, by norm_num, by norm_num, by norm_num, by ext <;> norm_num⟩
example : V3.dot (⟨2/3, -1/3, 2/3⟩ : V3 ℝ) ⟨2/3, -1/3, 2/3⟩ = 1 ∧ (0:ℝ) < 2/3 := by norm_num [V3.dot]

/-! ### C68 -/

/-- C68. Balance heuristic weights of two techniques: in [0,1], proportional to the densities, summing to one unless both vanish, and zero instead of 0/0 then. -/
theorem C68_balance {K : Type} [Field K] [LinearOrder K] [IsStrictOrderedRing K] (p q : K) (hp : 0 ≤ p) (hq : 0 ≤ q) :
    (0 ≤ balanceHeuristic p q ∧ balanceHeuristic p q ≤ 1) ∧ (¬ (p = 0 ∧ q = 0) → balanceHeuristic p q + balanceHeuristic q p = 1 ∧ balanceHeuristic p q * (p + q) = p) ∧
    (p = 0 ∧ q = 0 → balanceHeuristic p q = 0 ∧ balanceHeuristic q p = 0) ∧ (p = 0 → balanceHeuristic p q = 0) := by
  by_cases h : p = 0 ∧ q = 0
  · obtain ⟨rfl, rfl⟩ := h
    simp [balanceHeuristic]
  · have h' : ¬ (q = 0 ∧ p = 0) := fun ⟨a, b⟩ => h ⟨b, a⟩
    have hpos : 0 < p + q := by
      rcases hp.lt_or_eq with h1 | h1
      · linarith
      · rcases hq.lt_or_eq with h2 | h2
        · linarith
        · exact absurd ⟨h1.symm, h2.symm⟩ h
    have e1 : balanceHeuristic p q = p / (p + q) := by simp only [balanceHeuristic, if_neg h]
    have e2 : balanceHeuristic q p = q / (p + q) := by simp only [balanceHeuristic, if_neg h', add_comm]
    rw [e1, e2]
    refine ⟨⟨by positivity, by rw [div_le_one hpos]; linarith⟩, fun _ => ⟨by field_simp, by field_simp⟩, fun hc => absurd hc h, fun h0 => by rw [h0, zero_div]⟩

example : ¬ ((1:ℚ) = 0 ∧ (3:ℚ) = 0) ∧ balanceHeuristic (1:ℚ) 3 = 1/4 := by
  constructor
  · norm_num
  · norm_num [balanceHeuristic]

end LM.MathF
