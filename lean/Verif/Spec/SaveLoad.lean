import Verif.Model.SaveLoad
import Verif.Spec.Locator
import Mathlib.Data.List.Forall2
namespace LM.SaveLoad.Spec
open LM.Locator (Comp)
open LM.Locator.Spec (print GoodName At)

/-- Owned component with a given name. -/
def kid {W : Type} : Kids W → Str → Option (Node W)
  | .nil, _ => none
  | .null _ r, s => kid r s
  | .cons n c r, s => if n = s then some c else kid r s

/-- Component at a path of names. -/
def nodeAt {W : Type} : Node W → List Str → Option (Node W)
  | n, [] => some n
  | n, s :: p => match kid n.kids s with
    | none => none
    | some c => nodeAt c p

def dataAt {W : Type} (t : Node W) (p : List Str) : Option (Data W) := (nodeAt t p).map Node.data

mutual
/-- Slots of a component have different names (asset names are unique; member names are unique), and names are usable. -/
def NamesOk {W : Type} : Node W → Prop
  | .mk _ ks => NamesOkK ks
def NamesOkK {W : Type} : Kids W → Prop
  | .nil => True
  | .null _ r => NamesOkK r
  | .cons n c r => GoodName n ∧ kid r n = none ∧ NamesOk c ∧ NamesOkK r
end

/-- Every component of the tree carries as locator the printed path at which it sits. -/
def Located {W : Type} (p : List Str) (t : Node W) : Prop := ∀ q d, dataAt t q = some d → d.loc = print (p ++ q)

/-- The hierarchy `R` exposes every component of the tree by name, at `p` and below. -/
def Exposed {W : Type} (R : Comp) (p : List Str) (t : Node W) : Prop :=
  ∀ q d, dataAt t q = some d → ∃ c, At R (p ++ q) c ∧ c.id = d.id

/-- Every weak reference of the tree is null or refers to a component of the tree. -/
def Closed (t : Node (Option Nat)) : Prop :=
  ∀ q d i, dataAt t q = some d → some i ∈ d.weak → ∃ s d', dataAt t s = some d' ∧ d'.id = i

mutual
/-- The tree without identities, locators and reference targets: keys, plain members, which references are null, slot names and null slots in order. -/
inductive Shape where
  | mk (key : Str) (payload : List Nat) (weak : List Bool) (kids : Shapes)
inductive Shapes where
  | nil
  | cons (name : Str) (c : Shape) (rest : Shapes)
  | null (name : Str) (rest : Shapes)
end

mutual
def shape {A : Type} : Node (Option A) → Shape
  | .mk d ks => .mk d.key d.payload (d.weak.map Option.isSome) (shapes ks)
def shapes {A : Type} : Kids (Option A) → Shapes
  | .nil => .nil
  | .null n r => .null n (shapes r)
  | .cons n c r => .cons n (shape c) (shapes r)
end

/-- `i` in tree `t` and `j` in tree `t'` are the components at one and the same path. -/
def SamePlace (t t' : Node (Option Nat)) (i j : Nat) : Prop :=
  ∃ s d d', dataAt t s = some d ∧ d.id = i ∧ dataAt t' s = some d' ∧ d'.id = j

/-- References agree: both null, or targets at the same place. -/
def SameRef (t t' : Node (Option Nat)) : Option Nat → Option Nat → Prop
  | none, none => True
  | some i, some j => SamePlace t t' i j
  | _, _ => False

/-- `t'` is a copy of `t` placed at path `p'`. -/
structure CopyAt (p' : List Str) (t t' : Node (Option Nat)) : Prop where
  same_shape : shape t' = shape t
  located : Located p' t'
  refs : ∀ q d d', dataAt t q = some d → dataAt t' q = some d' → List.Forall₂ (SameRef t t') d.weak d'.weak

mutual
/-- Identities of all components of the tree. -/
def ids {W : Type} : Node W → List Nat
  | .mk d ks => d.id :: idsK ks
def idsK {W : Type} : Kids W → List Nat
  | .nil => []
  | .null _ r => idsK r
  | .cons _ c r => ids c ++ idsK r
end

mutual
/-- Every implementation key of the tree is registered. -/
def KeysKnown {W : Type} (C : Classes) : Node W → Prop
  | .mk d ks => C.known d.key = true ∧ KeysKnownK C ks
def KeysKnownK {W : Type} (C : Classes) : Kids W → Prop
  | .nil => True
  | .null _ r => KeysKnownK C r
  | .cons _ c r => KeysKnown C c ∧ KeysKnownK C r
end

end LM.SaveLoad.Spec
