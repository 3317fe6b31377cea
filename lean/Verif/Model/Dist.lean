import Mathlib.Algebra.Order.Field.Basic
import Mathlib.Algebra.Order.Floor.Ring
import Mathlib.Algebra.BigOperators.Group.List.Basic
/-
  Discrete distributions: include/lm/math.h:310-432. Float is an ordered field (no rounding).
  A division by zero makes every entry NaN in C++; the model answers none.
-/
namespace LM.Dist
variable {K : Type} [Field K] [LinearOrder K]

/-- Dist::c, math.h:311: initially { 0 }. -/
abbrev Dist (K : Type) := List K

/-- clear (324-327), and the initial value (math.h:324-327). -/
def empty : Dist K := [0]

/-- c.back() (c is never empty) (math.h:316-345). -/
def back (c : Dist K) : Option K := c.getLast?

/-- add, math.h:340-342. -/
def add (c : Dist K) (v : K) : Option (Dist K) := (back c).map (fun b => c ++ [b + v])

/-- add for each weight (math.h:316-345). -/
def addAll (c : Dist K) (vs : List K) : Option (Dist K) := vs.foldlM add c

/-- norm, math.h:347-352. -/
def norm (c : Dist K) : Option (Dist K) := (back c).bind (fun s => if s = 0 then none else some (c.map (· / s)))

/-- pmf, math.h:359-361. -/
def pmf (c : Dist K) (i : Int) : K :=
  if i < 0 ∨ i + 1 ≥ c.length then 0
  else match c[i.toNat + 1]?, c[i.toNat]? with
    | some b, some a => b - a
    | _, _ => 0

/-- std::upper_bound as specified and implemented (bisection): first position in [first, first+len) whose element is greater than u (used at math.h:316-370). -/
def upperBound (c : List K) (u : K) (first len : Nat) : Nat :=
  if h : len = 0 then first
  else
    let half := len / 2
    if (c[first + half]?).any (fun x => decide (u < x)) then upperBound c u first half
    else upperBound c u (first + half + 1) (len - half - 1)
termination_by len
decreasing_by all_goals omega

/-- sample, math.h:368-371. std::clamp with an empty range (empty distribution) is undefined. -/
def sample (c : Dist K) (u : K) : Option Nat :=
  if c.length < 2 then none
  else some ((min (max ((upperBound c u 0 c.length : Int) - 1) 0) ((c.length : Int) - 2)).toNat)

/-! ### Dist2, math.h:378-432 -/

/-- Dist2, math.h:385-432. -/
structure Dist2 (K : Type) where
  ds : List (Dist K)
  m : Dist K
  w : Nat
  h : Nat

/-- A default constructed Dist2 (math.h:385-400). -/
def fresh : Dist2 K := ⟨[], empty, 0, 0⟩

/-- One row of init (math.h:404-409): the unnormalised total of the row and its normalised distribution. -/
def initRow (v : List K) (w i : Nat) : Option (K × Dist K) := do
  let row ← (List.range w).mapM (fun j => v[i * w + j]?)
  let d ← addAll empty row
  let t ← back d
  let d' ← norm d
  return (t, d')

/-- init, math.h:399-412. Note that the marginal `m` is not cleared. -/
def init (d : Dist2 K) (v : List K) (cols rows : Nat) : Option (Dist2 K) := do
  let rs ← (List.range rows).mapM (fun i => initRow v cols i)
  let m ← addAll d.m (rs.map (·.1))
  let m' ← norm m
  return ⟨rs.map (·.2), m', cols, rows⟩

variable [FloorRing K]

/-- int(x) for x ≥ 0 (math.h:316-432). -/
def toIndex (x : K) : Int := ⌊x⌋

/-- pdf, math.h:420-423, for u, v ≥ 0. -/
def pdf (d : Dist2 K) (u v : K) : Option K :=
  let y := min (toIndex (v * (d.h : K))) ((d.h : Int) - 1)
  if y < 0 then none
  else (d.ds[y.toNat]?).map (fun r => pmf d.m y * pmf r (toIndex (u * (d.w : K))) * (d.w : K) * (d.h : K))

/-- sample, math.h:430-434. -/
def sample2 (d : Dist2 K) (u0 u1 u2 u3 : K) : Option (K × K) := do
  let y ← sample d.m u0
  let r ← d.ds[y]?
  let x ← sample r u1
  return (((x : K) + u2) / d.w, ((y : K) + u3) / d.h)

end LM.Dist
