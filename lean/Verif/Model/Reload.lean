import Verif.Model.Locator
/-
  Replacing an asset and redirecting the weak references of the component hierarchy:
  src/assetgroup.cpp:70-103 (load_asset, `found` branch), include/lm/component.h:520-556 (update_weak_ref, visit).
-/
namespace LM.Reload
open LM.Locator (Comp Res)

/-- A weak reference field `T* p_` of a component. `iface` is the static type T (0 = Component itself);
    `visible` says whether the class passes the field to the visitor in `foreach_underlying` (component.h:520-556). -/
structure Ref where
  target : Option Nat
  iface : Nat
  visible : Bool
deriving DecidableEq, Repr

/-- Data of a component instance. `kind` is its component interface, `strict` as in `Locator.Comp`;
    `isOpaque` marks classes that do not override `foreach_underlying`
    (include/lm/component.h:266: the default visits nothing). -/
structure Data where
  id : Nat
  loc : Str
  kind : Nat
  strict : Bool
  isOpaque : Bool
  refs : List Ref
deriving DecidableEq, Repr

mutual
/-- Ownership tree of component instances: a component with its data and named owned components.
    Null slots are simply absent (the visitor returns immediately, src/assetgroup.cpp:89-91). -/
inductive Node where
  | mk (d : Data) (kids : Kids)
/-- Owned components with the names by which the class exposes them, component.h:252, 266. -/
inductive Kids where
  | nil
  | cons (name : Str) (n : Node) (rest : Kids)
end

/-- The component itself (component.h:221-266). -/
def Node.data : Node → Data | .mk d _ => d
/-- The components it owns (component.h:252, 266). -/
def Node.kids : Node → Kids | .mk _ ks => ks

/-- `underlying(name)` on the owned components (component.h:252). -/
def Kids.find : Kids → Str → Option Node
  | .nil, _ => none
  | .cons n c r, s => if n = s then some c else r.find s

mutual
/-- The hierarchy as seen by locator lookup (Verif/Model/Locator.lean) (component.cpp:322-361). -/
def Node.proj : Node → Comp
  | .mk d ks => .mk d.id d.loc d.strict ks.proj
/-- As Node.proj, for the owned components (component.cpp:322-361). -/
def Kids.proj : Kids → List (Str × Comp)
  | .nil => []
  | .cons n c r => (n, c.proj) :: r.proj
end

mutual
/-- All component instances of a tree: identity, locator, interface (component.h:266). -/
def Node.insts : Node → List (Nat × Str × Nat)
  | .mk d ks => (d.id, d.loc, d.kind) :: ks.insts
/-- As Node.insts, for the owned components (component.h:266). -/
def Kids.insts : Kids → List (Nat × Str × Nat)
  | .nil => []
  | .cons _ c r => c.insts ++ r.insts
end

/-- Live instances by identity; a missing entry is freed memory (component.h:520-556). -/
abbrev Heap := List (Nat × Str × Nat)
/-- The instance at an address, component.h:520-556. -/
def Heap.get (h : Heap) (i : Nat) : Option (Str × Nat) := (h.find? (fun e => e.1 = i)).map Prod.snd

/-- Ways in which the traversal does not complete (assetgroup.cpp:70-103). -/
inductive Err where
  | throws   -- exception from `underlying` (model_wavefrontobj.cpp:70-72)
  | ub       -- dereference of a freed component
deriving DecidableEq, Repr

/-- dynamic_cast<T*> from the component's interface (component.h:520-556). -/
def castOk (iface kind : Nat) : Bool := iface = 0 || iface = kind

/-- One weak reference under the visitor lambda (src/assetgroup.cpp:88-102), through `comp::visit` (include/lm/component.h:538-544)
    and `update_weak_ref` (include/lm/component.h:520-531).
    `root` is the hierarchy: the traversal changes only reference targets, never identities, locators or ownership,
    so lookups during the traversal are evaluated on the hierarchy at its start. -/
def updRef (root : Comp) (heap : Heap) (asset : Nat) (r : Ref) : Except Err Ref :=
  if r.visible = false then .ok r
  else match r.target with
    | none => .ok r
    | some t =>
      if t = asset then .ok r
      else match heap.get t with
        | none => .error .ub
        | some (loc, _) =>
          if loc.isEmpty then .ok r
          else match Locator.get (some root) loc with
            | .throws => .error .throws
            | .null => .ok { r with target := none }
            | .found c =>
              match heap.get c.id with
              | none => .error .ub
              | some (_, k) => .ok { r with target := if castOk r.iface k then some c.id else none }

/-- The visitor applied to all visible references of a component, component.h:520-556, assetgroup.cpp:85-103. -/
def updRefs (root : Comp) (heap : Heap) (asset : Nat) : List Ref → Except Err (List Ref)
  | [] => .ok []
  | r :: rs =>
    match updRef root heap asset r with
    | .error e => .error e
    | .ok r' =>
      match updRefs root heap asset rs with
      | .error e => .error e
      | .ok rs' => .ok (r' :: rs')

mutual
/-- `foreach_underlying(visitor)` of a component: its weak references, then its owned components (src/assetgroup.cpp:88-102).
    Simplification: references are visited before owned components; the code interleaves them per class. -/
def visitNode (root : Comp) (heap : Heap) (asset : Nat) : Node → Except Err Node
  | .mk d ks =>
    if d.isOpaque then .ok (.mk d ks)
    else match updRefs root heap asset d.refs with
      | .error e => .error e
      | .ok rs =>
        match visitKids root heap asset ks with
        | .error e => .error e
        | .ok ks' => .ok (.mk { d with refs := rs } ks')
/-- The owned components; the new asset itself is skipped (src/assetgroup.cpp:92-95). -/
def visitKids (root : Comp) (heap : Heap) (asset : Nat) : Kids → Except Err Kids
  | .nil => .ok .nil
  | .cons n c r =>
    match (if c.data.id = asset then .ok c else visitNode root heap asset c) with
    | .error e => .error e
    | .ok c' =>
      match visitKids root heap asset r with
      | .error e => .error e
      | .ok r' => .ok (.cons n c' r')
end

/-- Replace the owned component with the given name (assetgroup.cpp:70-85). -/
def Kids.set : Kids → Str → Node → Kids
  | .nil, _, _ => .nil
  | .cons n c r, s, new => if n = s then .cons n new r else .cons n c (r.set s new)

/-- Replace the component at a path (src/assetgroup.cpp:77-81: the slot of the name gets the new instance). -/
def replaceAt : Node → List Str → Node → Node
  | _, [], new => new
  | .mk d ks, s :: p, new =>
    match ks.find s with
    | none => .mk d ks
    | some c => .mk d (ks.set s (replaceAt c p new))

/-- src/assetgroup.cpp:70-103: replace, (construct succeeded giving `new`), visit. `old` stays alive during the visit. -/
def reload (t : Node) (p : List Str) (new : Node) : Except Err Node :=
  let t1 := replaceAt t p new
  visitNode t1.proj (t.insts ++ new.insts) new.data.id t1

/-- src/assetgroup.cpp:85: `construct` throws, the visit is skipped; `new` is half constructed and `old` is released on unwinding. -/
def reloadThrows (t : Node) (p : List Str) (new : Node) : Node := replaceAt t p new

end LM.Reload
