import Verif.Model.Poll
/-
  Which function should receive a polled value.
-/
namespace LM.Poll
variable {V : Type}

/-- The function a call registers, if it registers. -/
def registers : Act V → Option (Option Nat)
  | .reg f | .regPy f => some f
  | _ => none

/-- The function registered last, if there is one. -/
def latest (h : List (Act V)) : Option Nat := (h.filterMap registers).getLast?.join

/-- The calls that should be made for a history: for every polled value, in order, one of the function registered last before it, if there is one. -/
def expected (h : List (Act V)) : List (Nat × V) :=
  (List.range h.length).filterMap fun i =>
    match (h[i]? : Option (Act V)) with
    | some (.poll v) => (latest (h.take i)).map fun f => (f, v)
    | _ => none

end LM.Poll
