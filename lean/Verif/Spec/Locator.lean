import Verif.Model.Locator
namespace LM.Locator.Spec

/-- `d` is reached from `c` by following the child names `ns`. -/
inductive At : Comp → List Str → Comp → Prop where
  | here (c : Comp) : At c [] c
  | down {c d e : Comp} {n : Str} {ns : List Str} (h : findChild c.children n = some d) (h' : At d ns e) : At c (n :: ns) e

/-- Printed locator of a path of names: "$.n1.n2..." -/
def print (ns : List Str) : Str := '$' :: ns.flatMap (fun n => '.' :: n)

/-- A usable asset/child name: non-empty and without a dot. -/
def GoodName (n : Str) : Prop := n ≠ [] ∧ '.' ∉ n

/-- Every component reachable by names carries as locator the printed path by which it is reached. -/
def WellLocated (root : Comp) : Prop := ∀ ns c, At root ns c → c.loc = print ns

end LM.Locator.Spec
