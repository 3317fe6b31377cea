import Verif.Model.Vec
import Verif.Model.Ext
/-
  Bounding boxes: include/lm/math.h:82-178. glm::max(x, y) = (x < y) ? y : x, glm::min(x, y) = (y < x) ? y : x (glm/detail/func_common.inl).
-/
namespace LM.Bound

section Merge
variable {K : Type} [Field K] [LinearOrder K]

/-- Bound, math.h:82-84. -/
structure Box (K : Type) where
  min : V3 K
  max : V3 K

/-- glm::max(x, y), used at math.h:130-178. -/
def gmax (x y : K) : K := if x < y then y else x
/-- glm::min(x, y), used at math.h:130-178. -/
def gmin (x y : K) : K := if y < x then y else x
/-- glm::min / glm::max on vectors: componentwise (used at math.h:130-178). -/
def vmin (a b : V3 K) : V3 K := ⟨gmin a.x b.x, gmin a.y b.y, gmin a.z b.z⟩
/-- glm::max on vectors (used at math.h:130-178). -/
def vmax (a b : V3 K) : V3 K := ⟨gmax a.x b.x, gmax a.y b.y, gmax a.z b.z⟩

/-- Inf, math.h:54: a finite sentinel, 1e10. -/
def Inf : K := 10 ^ 10

/-- Default constructed bound, math.h:83-84. -/
def dflt : Box K := ⟨V3.all Inf, V3.all (-Inf)⟩

/-- merge(Bound, Vec3), math.h:166-168. -/
def mergeP (b : Box K) (p : V3 K) : Box K := ⟨vmin b.min p, vmax b.max p⟩
/-- merge(Bound, Bound), math.h:176-178. -/
def merge (a b : Box K) : Box K := ⟨vmin a.min b.min, vmax a.max b.max⟩
/-- center(), math.h:103. -/
def center (b : Box K) : V3 K := ((1 : K) / 2) • (b.min + b.max)
/-- surface_area(), math.h:109-112. -/
def surfaceArea (b : Box K) : K :=
  let d := b.max - b.min
  2 * (d.x * d.y + d.y * d.z + d.z * d.x)
end Merge

/-! ### Ray / box test -/

section RayBox
variable {K : Type} [Field K] [LinearOrder K]

/-- IEEE product (used at math.h:145-156). -/
def emul : EFK K → EFK K → EFK K
  | .fin a, .fin b => .fin (a * b)
  | .fin a, .pinf => if a = 0 then .nan else if a < 0 then .ninf else .pinf
  | .fin a, .ninf => if a = 0 then .nan else if a < 0 then .pinf else .ninf
  | _, _ => .nan  -- not reached: the left factor is finite

/-- IEEE comparison x < y (used at math.h:145-156). -/
def elt : EFK K → EFK K → Bool
  | .nan, _ => false
  | _, .nan => false
  | .fin a, .fin b => decide (a < b)
  | .ninf, .ninf => false
  | .ninf, _ => true
  | _, .ninf => false
  | .pinf, _ => false
  | .fin _, .pinf => true

/-- glm::max with IEEE comparison, used at math.h:145-156. -/
def emax (x y : EFK K) : EFK K := if elt x y then y else x
/-- glm::min with IEEE comparison, used at math.h:145-156. -/
def emin (x y : EFK K) : EFK K := if elt y x then y else x

/-- 1 / d; `nz`: a zero d is the negative zero (math.h:145-156). -/
def recip (d : K) (nz : Bool) : EFK K := if d = 0 then (if nz then .ninf else .pinf) else .fin (1 / d)

/-- One iteration of the loop of isect_range (math.h:145-156); none: `return false`. -/
def axis (mn mx o d : K) (nz : Bool) (tmin tmax : EFK K) : Option (EFK K × EFK K) :=
  let vd := recip d nz
  let t1 := emul (.fin (mn - o)) vd
  let t2 := emul (.fin (mx - o)) vd
  let p := if elt vd (.fin 0) then (t2, t1) else (t1, t2)
  let tmin' := emax p.1 tmin
  let tmax' := emin p.2 tmax
  if elt tmax' tmin' then none else some (tmin', tmax')

/-- Ray, math.h:67-69. -/
structure RayK (K : Type) where
  o : V3 K
  d : V3 K
  nz : Bool × Bool × Bool   -- signs of zero direction components

/-- Rays with rational coordinates (math.h:67-69). -/
abbrev Ray := RayK ℚ

/-- isect_range, math.h:143-158: the updated (tmin, tmax), or none if it answers false. -/
def isectRange (b : Box K) (r : RayK K) (tmin tmax : EFK K) : Option (EFK K × EFK K) :=
  (axis b.min.x b.max.x r.o.x r.d.x r.nz.1 tmin tmax).bind (fun p =>
  (axis b.min.y b.max.y r.o.y r.d.y r.nz.2.1 p.1 p.2).bind (fun p =>
  axis b.min.z b.max.z r.o.z r.d.z r.nz.2.2 p.1 p.2))

/-- isect, math.h:127-129. -/
def isect (b : Box K) (r : RayK K) (tmin tmax : EFK K) : Bool := (isectRange b r tmin tmax).isSome

end RayBox
end LM.Bound
