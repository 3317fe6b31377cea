import Verif.Model.Vec
import Verif.Model.Math
import Mathlib.Analysis.SpecialFunctions.Sqrt
/-
  Point geometry and surface functions: include/lm/surface.h; Transform: include/lm/math.h:724-746; visibility: include/lm/scene.h:343-364.
  Float is ℝ. A 0/0 (NaN) is the outcome none.
-/
namespace LM.Surface
open LM LM.MathF

/-- PointGeometry, surface.h:52-63; to_world and to_local are determined by u, v, n. Texture coordinates are left out. -/
structure Geom where
  degenerated : Bool
  infinite : Bool
  p : V3 ℝ
  n : V3 ℝ
  gn : V3 ℝ
  wo : V3 ℝ
  u : V3 ℝ
  v : V3 ℝ

/-- make_degenerated, surface.h:74-80. The other members are uninitialised in C++: `junk`. -/
def makeDegenerated (p : V3 ℝ) (junk : V3 ℝ) : Geom := ⟨true, false, p, junk, junk, junk, junk, junk⟩

/-- make_infinite, surface.h:91-97, 104-111. -/
def makeInfinite (wo p : V3 ℝ) (junk : V3 ℝ) : Geom := ⟨false, true, p, junk, junk, wo, junk, junk⟩

/-- make_on_surface, surface.h:125-137; `nz`: a zero n.z is the negative zero. -/
noncomputable def makeOnSurface (p n gn : V3 ℝ) (nz : Bool) (junk : V3 ℝ) : Geom :=
  let uv := orthonormalBasis n nz
  ⟨false, false, p, n, gn, junk, uv.1, uv.2⟩

/-- to_local * w, surface.h:134-135: the transpose of the matrix with columns u, v, n. -/
def toLocal (g : Geom) (w : V3 ℝ) : V3 ℝ := ⟨V3.dot g.u w, V3.dot g.v w, V3.dot g.n w⟩

/-- to_world * w (surface.h:104-111). -/
def toWorld (g : Geom) (w : V3 ℝ) : V3 ℝ := w.x • g.u + w.y • g.v + w.z • g.n

/-- opposite, surface.h:179-181. -/
noncomputable def opposite (g : Geom) (w1 w2 : V3 ℝ) : Bool := decide (V3.dot w1 g.n * V3.dot w2 g.n ≤ 0)

/-- orthonormal_basis_twosided, surface.h:193-196. -/
noncomputable def basisTwosided (g : Geom) (wi : V3 ℝ) : V3 ℝ × V3 ℝ × V3 ℝ :=
  if V3.dot wi g.n > 0 then (g.n, g.u, g.v) else (-g.n, g.u, -g.v)

/-- geometry_term, surface.h:329-348; none: coincident finite points (0/0). -/
noncomputable def geometryTerm (s1 s2 : Geom) : Option ℝ :=
  if s1.infinite && s2.infinite then some 0
  else
    let go (d : V3 ℝ) (L2 : ℝ) : ℝ :=
      let cos1 := if s1.degenerated || s1.infinite then 1 else |V3.dot s1.n d|
      let cos2 := if s2.degenerated || s2.infinite then 1 else |V3.dot s2.n (-d)|
      cos1 * cos2 / L2
    if s1.infinite || s2.infinite then some (go (if s1.infinite then s1.wo else -s2.wo) 1)
    else
      let d := s2.p - s1.p
      let L2 := V3.dot d d
      if L2 = 0 then none else some (go ((1 / Real.sqrt L2) • d) L2)

/-- distance, surface.h:361-363 (Inf = 1e10). -/
noncomputable def distance (s1 s2 : Geom) : ℝ :=
  if s1.infinite || s2.infinite then 10 ^ 10 else Real.sqrt (V3.dot (s1.p - s2.p) (s1.p - s2.p))

/-- convert_pdf_SA_to_projSA, surface.h:377-390. -/
noncomputable def convertSAtoProjSA (pdf : ℝ) (g : Geom) (d : V3 ℝ) : ℝ :=
  if g.degenerated then pdf
  else
    let J := |V3.dot g.n d|
    if J = 0 then 0 else pdf / J

/-- convert_pdf_to_area, surface.h:406-409. -/
noncomputable def convertToArea (pdf : ℝ) (g1 g2 : Geom) : Option ℝ := (geometryTerm g1 g2).map (fun G => pdf * G)

/-- TransDir, surface.h:302-305. -/
inductive TransDir | LE | EL
deriving DecidableEq

/-- shading_normal_correction, surface.h:424-438. -/
noncomputable def shadingNormalCorrection (g : Geom) (wi wo : V3 ℝ) (dir : TransDir) : ℝ :=
  let wiNg := V3.dot wi g.gn
  let woNg := V3.dot wo g.gn
  let wiNs := localCos (toLocal g wi)
  let woNs := localCos (toLocal g wo)
  if wiNg * wiNs ≤ 0 ∨ woNg * woNs ≤ 0 then 0
  else if dir = .LE then wiNs * woNg / (woNs * wiNg) else 1

/-! ### Visibility, scene.h:343-364 -/

/-- Eps = 1e-3 (math.h:56), Inf = 1e10 (math.h:54). -/
noncomputable def Eps : ℝ := 1 / 1000
/-- The constant Inf = 1e10, math.h:33-60. -/
noncomputable def Inf : ℝ := 10 ^ 10

/-- Some point of the surfaces S lies on the ray within [tmin, tmax]: what `intersect` answers with tmax < Inf (C37) (scene.h:147-156). -/
def Blocked (S : Set (V3 ℝ)) (o d : V3 ℝ) (tmin tmax : ℝ) : Prop := ∃ t, tmin ≤ t ∧ t ≤ tmax ∧ o + t • d ∈ S

/-- The inner function visible_, scene.h:344-356: direction and length for a finite s1. -/
noncomputable def visible1 (S : Set (V3 ℝ)) (s1 s2 : Geom) : Prop :=
  if s2.infinite then ¬ Blocked S s1.p (-s2.wo) Eps (Inf - 1)
  else
    let d := Real.sqrt (V3.dot (s2.p - s1.p) (s2.p - s1.p))
    ¬ Blocked S s1.p ((1 / d) • (s2.p - s1.p)) Eps (d * (1 - Eps))

/-- visible, scene.h:357-363. -/
noncomputable def visible (S : Set (V3 ℝ)) (s1 s2 : Geom) : Prop := if s1.infinite then visible1 S s2 s1 else visible1 S s1 s2

/-! ### Transform, math.h:724-746 -/

/-- The affine part of a Mat4 (columns c1 c2 c3 and translation); the last row is assumed to be (0,0,0,1) (math.h:724-746). -/
structure Aff (K : Type) where
  c1 : V3 K
  c2 : V3 K
  c3 : V3 K
  t : V3 K

section Aff
variable {K : Type} [Field K]

/-- Mat3(M) * v (math.h:724-746). -/
def Aff.lin (A : Aff K) (v : V3 K) : V3 K := v.x • A.c1 + v.y • A.c2 + v.z • A.c3

/-- M * Vec4(p, 1) (math.h:724-746). -/
def Aff.app (A : Aff K) (p : V3 K) : V3 K := A.lin p + A.t

/-- determinant(Mat3(M)) (math.h:724-746). -/
def Aff.det (A : Aff K) : K := V3.dot A.c1 (V3.cross A.c2 A.c3)

/-- normal_M = Mat3(transpose(inverse(M))), math.h:742. For an affine M this is the transposed inverse of the linear part, whose columns are the cofactor vectors over the determinant. -/
def Aff.normalM (A : Aff K) (n : V3 K) : V3 K :=
  (1 / A.det) • (n.x • V3.cross A.c2 A.c3 + n.y • V3.cross A.c3 A.c1 + n.z • V3.cross A.c1 A.c2)

end Aff
end LM.Surface
