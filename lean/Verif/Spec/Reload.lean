import Verif.Model.Reload
import Verif.Spec.Locator
namespace LM.Reload.Spec
open LM.Locator.Spec (print GoodName)

/-- The component at a path of names. -/
def nodeAt : Node → List Str → Option Node
  | n, [] => some n
  | n, s :: p => match n.kids.find s with
    | none => none
    | some c => nodeAt c p

/-- Data of the component at a path of names. -/
def dataAt (t : Node) (p : List Str) : Option Data := (nodeAt t p).map Node.data

/-- Every class on the way from the root to the path (inclusive) reports its underlying components. -/
def Reported (t : Node) (q : List Str) : Prop := ∀ q' d, q' <+: q → dataAt t q' = some d → d.isOpaque = false

/-- Every component carries the printed path as its locator, and names are usable. -/
def WellLoc (base : List Str) (t : Node) : Prop := ∀ q d, dataAt t q = some d → d.loc = print (base ++ q) ∧ ∀ n ∈ q, GoodName n

mutual
/-- Owned components of one component have different names. -/
def DistinctNames : Node → Prop
  | .mk _ ks => DistinctKids ks
def DistinctKids : Kids → Prop
  | .nil => True
  | .cons n c r => r.find n = none ∧ DistinctNames c ∧ DistinctKids r
end

/-- Identities of instances are all different. -/
def UniqueIds (l : List (Nat × Str × Nat)) : Prop := (l.map Prod.fst).Nodup

/-- `i` is the identity of a component of the hierarchy. -/
def InTree (t : Node) (i : Nat) : Prop := ∃ s d, dataAt t s = some d ∧ d.id = i

/-- Reported references of reported components refer to components of the hierarchy with a compatible interface. -/
def LiveRefs (t : Node) : Prop :=
  ∀ q d r i, Reported t q → dataAt t q = some d → r ∈ d.refs → r.visible = true → r.target = some i →
    ∃ s d', dataAt t s = some d' ∧ d'.id = i ∧ castOk r.iface d'.kind = true

/-- What a reference must be after the reload: the component now at path `s`, if there is one with the right interface. -/
def expected (t : Node) (s : List Str) (iface : Nat) : Option Nat :=
  match dataAt t s with
  | none => none
  | some d => if castOk iface d.kind then some d.id else none

/-- No component throws from `underlying`. -/
def NoStrict (t : Node) : Prop := ∀ q d, dataAt t q = some d → d.strict = false

end LM.Reload.Spec
