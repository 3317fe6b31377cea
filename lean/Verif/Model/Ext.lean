import Mathlib.Algebra.Order.Field.Rat
/-
  IEEE doubles idealised as {NaN, +inf, -inf} and exact numbers (no rounding, no signed zeros).
-/
namespace LM

/-- Float values: numbers, NaN and infinities (common.h:278-287). -/
inductive EFK (K : Type) where
  | nan
  | pinf
  | ninf
  | fin (q : K)
deriving DecidableEq

/-- With rational numbers (common.h:278-287). -/
abbrev EF := EFK ℚ

namespace EF
/-- std::isnan (used at film_bitmap.cpp:84-105). -/
def isNan : EF → Bool | .nan => true | _ => false
/-- std::isinf (used at film_bitmap.cpp:84-105). -/
def isInf : EF → Bool | .pinf => true | .ninf => true | _ => false
end EF
end LM
