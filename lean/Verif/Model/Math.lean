import Verif.Model.Vec
import Mathlib.Analysis.SpecialFunctions.Trigonometric.Basic
import Mathlib.Analysis.SpecialFunctions.Sqrt
/-
  Basic math functions: include/lm/math.h:465-702. Float is an ordered field, or ℝ where square roots and trigonometry occur.
-/
namespace LM.MathF
open LM

section Field
variable {K : Type} [Field K] [LinearOrder K]

/-- copysign(1, z), math.h:541; `nz`: a zero z is the negative zero. -/
def copysign1 (z : K) (nz : Bool) : K := if z < 0 ∨ (z = 0 ∧ nz = true) then -1 else 1

/-- orthonormal_basis, math.h:540-547. -/
def orthonormalBasis (n : V3 K) (nz : Bool) : V3 K × V3 K :=
  let s := copysign1 n.z nz
  let a := -1 / (s + n.z)
  let b := n.x * n.y * a
  (⟨1 + s * n.x * n.x * a, s * b, -s * n.x⟩, ⟨b, s + n.y * n.y * a, -n.y⟩)

/-- reflection, math.h:497-499. -/
def reflection (w n : V3 K) : V3 K := (2 * V3.dot w n) • n - w

/-- mix_barycentric, math.h:573-575. -/
def mixBarycentric (a b c : V3 K) (u v : K) : V3 K := (1 - u - v) • a + u • b + v • c

/-- balance_heuristic, math.h:697-702. -/
def balanceHeuristic (p1 p2 : K) : K := if p1 = 0 ∧ p2 = 0 then 0 else p1 / (p1 + p2)
end Field

/-- safe_sqrt, math.h:478-480. -/
noncomputable def safeSqrt (v : ℝ) : ℝ := Real.sqrt (max 0 v)

/-- refraction, math.h:517-524; none: total internal reflection. -/
noncomputable def refraction (wi n : V3 ℝ) (eta : ℝ) : Option (V3 ℝ) :=
  let t := V3.dot wi n
  let t2 := 1 - eta * eta * (1 - t * t)
  if t2 ≤ 0 then none else some (eta • (t • n - wi) - safeSqrt t2 • n)

/-- local_sin, math.h:592-594. -/
noncomputable def localSin (d : V3 ℝ) : ℝ := safeSqrt (1 - d.z * d.z)
/-- local_cos, math.h:599-601. -/
def localCos (d : V3 ℝ) : ℝ := d.z
/-- local_tan, math.h:606-609. -/
noncomputable def localTan (d : V3 ℝ) : ℝ :=
  let t := 1 - d.z * d.z
  if t ≤ 0 then 0 else Real.sqrt t / d.z
/-- local_tan2, math.h:614-621; Inf = 1e10. -/
noncomputable def localTan2 (d : V3 ℝ) : ℝ :=
  if d.z = 0 then 10 ^ 10
  else
    let cos2 := d.z * d.z
    let sin2 := 1 - cos2
    if sin2 ≤ 0 then 0 else sin2 / cos2

/-- spherical_to_cartesian, math.h:580-587. -/
noncomputable def sphericalToCartesian (θ φ : ℝ) : V3 ℝ := ⟨Real.sin θ * Real.cos φ, Real.sin θ * Real.sin φ, Real.cos θ⟩

/-- sample_uniform_disk, math.h:632-638. -/
noncomputable def sampleUniformDisk (u0 u1 : ℝ) : ℝ × ℝ :=
  let r := safeSqrt u0
  let t := 2 * Real.pi * u1
  (r * Real.cos t, r * Real.sin t)

/-- sample_cosine_weighted, math.h:653-659. -/
noncomputable def sampleCosineWeighted (u0 u1 : ℝ) : V3 ℝ :=
  let r := safeSqrt u0
  let t := 2 * Real.pi * u1
  let x := r * Real.cos t
  let y := r * Real.sin t
  ⟨x, y, safeSqrt (1 - x * x - y * y)⟩

/-- sample_uniform_sphere, math.h:674-681. -/
noncomputable def sampleUniformSphere (u0 u1 : ℝ) : V3 ℝ :=
  let z := 1 - 2 * u0
  let r := safeSqrt (1 - z * z)
  let t := 2 * Real.pi * u1
  ⟨r * Real.cos t, r * Real.sin t, z⟩

/-- Point sampling on a triangle, light_area.cpp:49-54: s = safe_sqrt(u0), p = mix_barycentric(a, b, c, (1 - s, u1 s)). -/
noncomputable def sampleTriangle (a b c : V3 ℝ) (u0 u1 : ℝ) : V3 ℝ :=
  let s := safeSqrt u0
  mixBarycentric a b c (1 - s) (u1 * s)

end LM.MathF
