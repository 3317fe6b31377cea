import Verif.Model.Material
import Verif.Model.Bound
import Mathlib.Analysis.SpecialFunctions.Log.Basic
/-
  Volumes (src/volume/*.cpp), phase functions (src/phase/*.cpp) and media (src/medium/*.cpp). Float is ℝ.
  Dereferencing an empty optional, a division by zero that yields NaN, and a thrown Unimplemented are none / undef.
-/
namespace LM.Volume
open LM LM.MathF LM.Surface LM.Material LM.Bound

/-! ### Volumes -/

/-- The interface of volumes, volume.h:22-70 (march is left out here: no medium calls it; see Model/VolRaycast). -/
structure Vol where
  bound : Box ℝ
  hasScalar : Bool
  maxScalar : Option ℝ
  evalScalar : V3 ℝ → Option ℝ
  hasColor : Bool
  evalColor : V3 ℝ → Option (V3 ℝ)

/-- C++ conversion of a double to int: towards zero. Values out of the range of int are not modelled (used at volume_checker.cpp:22-62). -/
noncomputable def toInt (x : ℝ) : Int := if x < 0 then ⌈x⌉ else ⌊x⌋

/-- volume::checker, volume_checker.cpp:22-62. The z component of t is computed but not used. `Int.tmod` is the C++ %. -/
noncomputable def checker (b : Box ℝ) : Vol where
  bound := b
  hasScalar := true
  maxScalar := some 1
  evalScalar p := do
    let tx ← divF (p.x - b.min.x) (b.max.x - b.min.x)
    let ty ← divF (p.y - b.min.y) (b.max.y - b.min.y)
    return if Int.tmod (toInt (tx / (1 / 5)) + toInt (ty / (1 / 5))) 2 = 0 then 1 else 0
  hasColor := false
  evalColor _ := none

/-- volume::constant, volume_constant.cpp:24-70; none: construct throws. `b`: the bound, or the default of lines 39-40. -/
noncomputable def constant (b : Option (Box ℝ)) (color : Option (V3 ℝ)) (scalar : Option ℝ) : Option Vol :=
  if color = none ∧ scalar = none then none
  else some ⟨b.getD ⟨V3.all Bound.Inf, V3.all (-Bound.Inf)⟩, scalar.isSome, scalar, fun _ => scalar, color.isSome, fun _ => color⟩

/-- compAC, volume_gaussian.cpp:55-57. -/
noncomputable def compAC (s : ℝ) : ℝ := 2 * Real.sqrt (-2 * s * Real.log Eps)

/-- computeBound, volume_gaussian.cpp:54-66. -/
noncomputable def gaussianBound (pos sigma : V3 ℝ) : Box ℝ :=
  let ac := max (max (compAC sigma.x) (compAC sigma.y)) (compAC sigma.z)
  ⟨pos - V3.all ac, pos + V3.all ac⟩

/-- volume::gaussian, volume_gaussian.cpp:24-93. sqrt of a negative number in compAC (negative sigma) is 0 here and NaN in C++. -/
noncomputable def gaussian (color : Option (V3 ℝ)) (scalar : Option ℝ) (pos sigma : V3 ℝ) : Option Vol :=
  if color = none ∧ scalar = none then none
  else some ⟨gaussianBound pos sigma, scalar.isSome, scalar,
    fun p => do
      let m ← scalar
      let d := pos - p
      let x ← divF (d.x * d.x) (sigma.x * sigma.x)
      let y ← divF (d.y * d.y) (sigma.y * sigma.y)
      let z ← divF (d.z * d.z) (sigma.z * sigma.z)
      return m * Real.exp (-(1 / 2) * (x + y + z)),
    color.isSome, fun _ => color⟩

/-- computeBound, volume_sphere.cpp:51-60. -/
noncomputable def sphereBound (pos : V3 ℝ) (radius : ℝ) : Box ℝ :=
  let r := 1.73205080757 * radius
  ⟨pos - V3.all r - V3.all Eps, pos + V3.all r + V3.all Eps⟩

/-- volume::sphere, volume_sphere.cpp:22-89. -/
noncomputable def sphere (color : Option (V3 ℝ)) (scalar : Option ℝ) (pos : V3 ℝ) (radius : ℝ) : Option Vol :=
  if color = none ∧ scalar = none then none
  else some ⟨sphereBound pos radius, scalar.isSome, scalar,
    fun p => scalar.map (fun m => m * (if Real.sqrt (V3.dot (pos - p) (pos - p)) < radius then 1 else 0)),
    color.isSome, fun _ => color⟩

open Classical in
/-- is_in_bound, volume_multi.cpp:92-100. -/
noncomputable def inBound (p : V3 ℝ) (b : Box ℝ) : Bool :=
  decide (b.min.x ≤ p.x ∧ b.max.x ≥ p.x) && decide (b.min.y ≤ p.y ∧ b.max.y ≥ p.y) && decide (b.min.z ≤ p.z ∧ b.max.z ≥ p.z)

/-- The loop over volumes_den_ in construct, volume_multi.cpp:59-76: bound and sum of maxima. -/
noncomputable def multiBound (den : List Vol) : Box ℝ :=
  den.foldl (fun b v => ⟨⟨min b.min.x v.bound.min.x, min b.min.y v.bound.min.y, min b.min.z v.bound.min.z⟩,
    ⟨max b.max.x v.bound.max.x, max b.max.y v.bound.max.y, max b.max.z v.bound.max.z⟩⟩) ⟨V3.all Bound.Inf, V3.all (-Bound.Inf)⟩

/-- max_scalar_ (volume_multi.cpp:71, 90). -/
noncomputable def multiMax (den : List Vol) : Option ℝ := den.foldlM (fun s v => v.maxScalar.map (fun m => s + m)) 0

/-- eval_scalar, volume_multi.cpp:103-111. -/
noncomputable def multiScalar (den : List Vol) (p : V3 ℝ) : Option ℝ :=
  den.foldlM (fun s v => if inBound p v.bound then (v.evalScalar p).map (fun x => s + x) else some s) 0

/-- eval_color, volume_multi.cpp:119-134: pairs of density and albedo volumes. -/
noncomputable def multiColor (vs : List (Vol × Vol)) (p : V3 ℝ) : Option (V3 ℝ) := do
  let r ← vs.foldlM (fun (acc : V3 ℝ × ℝ) va =>
    if inBound p va.1.bound then do
      let sc ← va.1.evalScalar p
      let c ← va.2.evalColor p
      return (acc.1 + sc • c, acc.2 + sc)
    else some acc) (0, 0)
  divV r.1 r.2

/-- volume::multi, volume_multi.cpp:22-136: density and albedo volumes paired by position; none: construct throws. -/
noncomputable def multi (alb den : List Vol) : Option Vol :=
  if alb.length = 0 ∨ den.length = 0 ∨ den.length ≠ alb.length then none
  else if alb.any (fun v => !v.hasColor) || den.any (fun v => !v.hasScalar) then none
  else some ⟨multiBound den, true, multiMax den, multiScalar den, true, multiColor (den.zip alb)⟩

/-! ### Phase functions -/

/-- The interface of phase functions, phase.h:22-58. -/
structure Phase where
  sampleDirection : ℝ → ℝ → V3 ℝ → DirRes
  pdfDirection : V3 ℝ → V3 ℝ → Option ℝ
  eval : V3 ℝ → V3 ℝ → Option (V3 ℝ)

/-- phase::isotropic, phase_isotropic.cpp:20-41. -/
noncomputable def isotropic : Phase where
  sampleDirection u0 u1 _ := .ok (sampleUniformSphere u0 u1) (V3.all 1)
  pdfDirection _ _ := some (1 / (4 * Real.pi))
  eval _ _ := some (V3.all (1 / (4 * Real.pi)))

/-- The cosine sampled by phase::hg, phase_hg.cpp:36-44; none: division by zero. -/
noncomputable def hgCos (g u : ℝ) : Option ℝ :=
  if |g| < Eps then some (1 - 2 * u)
  else do
    let sq ← divF (1 - g * g) (1 - g + 2 * g * u)
    divF (1 + g * g - sq * sq) (2 * g)

/-- pdf_direction, phase_hg.cpp:56-59. -/
noncomputable def hgPdf (g : ℝ) (wi wo : V3 ℝ) : Option ℝ :=
  let t := 1 + g * g + 2 * g * V3.dot wi wo
  (divF (1 - g * g) (t * Real.sqrt t)).map (fun x => x / (Real.pi * 4))

/-- phase::hg, phase_hg.cpp:21-63; `sgn` is the sign bit of a zero z component of -wi. -/
noncomputable def hg (sgn : V3 ℝ → Bool) (g : ℝ) : Phase where
  sampleDirection u0 u1 wi :=
    match hgCos g u0 with
    | none => .undef
    | some c =>
      let s := safeSqrt (1 - c * c)
      let φ := 2 * Real.pi * u1
      let uv := orthonormalBasis (-wi) (sgn (-wi))
      .ok ((s * Real.cos φ) • uv.1 + (s * Real.sin φ) • uv.2 + c • (-wi)) (V3.all 1)
  pdfDirection wi wo := hgPdf g wi wo
  eval wi wo := (hgPdf g wi wo).map V3.all

/-! ### Media -/

/-- Result of sample_distance: nullopt, a value that is not a number, or a point with weight and the flag `medium` (path.h:640-794, medium_homogeneous.cpp:61-88). -/
inductive DistRes
  | none
  | undef
  | ok (p : V3 ℝ) (weight : V3 ℝ) (medium : Bool)

/-- medium::homogeneous, sample_distance, medium_homogeneous.cpp:61-88. A NaN bound makes the comparison false and the returned point NaN;
    for density = 0 the distance is +∞ (or NaN) and the comparison false. -/
noncomputable def homogeneousDistance (density : ℝ) (albedo : V3 ℝ) (b : Box ℝ) (r : RayK ℝ) (tmin tmax u : ℝ) : DistRes :=
  match isectRange b r (.fin tmin) (.fin tmax) with
  | none => .none
  | some (.fin a, .fin c) =>
    if density ≠ 0 ∧ -Real.log (1 - u) / density < c - a then .ok (r.o + (a + -Real.log (1 - u) / density) • r.d) albedo true
    else .ok (r.o + c • r.d) (V3.all 1) false
  | some _ => .undef

/-- eval_transmittance, medium_homogeneous.cpp:90-97. -/
noncomputable def homogeneousTransmittance (density : ℝ) (b : Box ℝ) (r : RayK ℝ) (tmin tmax : ℝ) : Option (V3 ℝ) :=
  match isectRange b r (.fin tmin) (.fin tmax) with
  | none => some (V3.all 1)
  | some (.fin a, .fin c) => some (V3.all (Real.exp (-density * (c - a))))
  | some _ => none

/-- Outcome of the tracking loops: `more` means the given random numbers did not suffice to leave the loop (medium_heterogeneous.cpp:43-105). -/
inductive Track (α : Type)
  | more
  | undef
  | done (a : α)

/-- The loop of sample_distance, medium_heterogeneous.cpp:52-77; the list holds the successive values of rng.u(). Result none: nullopt. -/
noncomputable def deltaTracking (density albedo : Vol) (r : RayK ℝ) (inv tmax : ℝ) : ℝ → List ℝ → Track (Option (V3 ℝ × V3 ℝ))
  | _, [] => .more
  | t, u1 :: us =>
    let t := t - Real.log (1 - u1) * inv
    if t ≥ tmax then .done none
    else match density.evalScalar (r.o + t • r.d) with
      | none => .undef
      | some d => match us with
        | [] => .more
        | u2 :: us =>
          if d * inv > u2 then
            match albedo.evalColor (r.o + t • r.d) with
            | none => .undef
            | some c => .done (some (r.o + t • r.d, c))
          else deltaTracking density albedo r inv tmax t us

/-- medium::heterogeneous, sample_distance, medium_heterogeneous.cpp:43-80. A zero max_scalar (1/0 = ∞) is `undef`. -/
noncomputable def heterogeneousDistance (density albedo : Vol) (r : RayK ℝ) (tmin tmax : ℝ) (us : List ℝ) : Track DistRes :=
  match isectRange density.bound r (.fin tmin) (.fin tmax) with
  | none => .done .none
  | some (.fin a, .fin c) =>
    match density.maxScalar.bind (fun m => divF 1 m) with
    | none => .undef
    | some inv => match deltaTracking density albedo r inv c a us with
      | .more => .more
      | .undef => .undef
      | .done none => .done .none
      | .done (some (p, w)) => .done (.ok p w true)
  | some _ => .undef

/-- The loop of eval_transmittance, medium_heterogeneous.cpp:90-104. -/
noncomputable def ratioTracking (density : Vol) (r : RayK ℝ) (inv tmax : ℝ) : ℝ → ℝ → List ℝ → Track ℝ
  | _, _, [] => .more
  | t, tr, u1 :: us =>
    let t := t - Real.log (1 - u1) * inv
    if t ≥ tmax then .done tr
    else match density.evalScalar (r.o + t • r.d) with
      | none => .undef
      | some d => ratioTracking density r inv tmax t (tr * (1 - d * inv)) us

/-- eval_transmittance, medium_heterogeneous.cpp:82-105. -/
noncomputable def heterogeneousTransmittance (density : Vol) (r : RayK ℝ) (tmin tmax : ℝ) (us : List ℝ) : Track (V3 ℝ) :=
  match isectRange density.bound r (.fin tmin) (.fin tmax) with
  | none => .done (V3.all 1)
  | some (.fin a, .fin c) =>
    match density.maxScalar.bind (fun m => divF 1 m) with
    | none => .undef
    | some inv => match ratioTracking density r inv c a 1 us with
      | .more => .more
      | .undef => .undef
      | .done t => .done (V3.all t)
  | some _ => .undef

end LM.Volume
