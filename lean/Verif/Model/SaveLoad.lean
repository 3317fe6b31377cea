import Verif.Model.Locator
/-
  Saving and loading trees of components: include/lm/serial.h:98-387, src/user.cpp:104-112, src/assetgroup.cpp:119-136.
-/
namespace LM.SaveLoad
open LM.Locator (Comp Res)

/-- One saved value. The bytes of each value are modelled in Verif/Model/Archive.lean (serial.h:98-387). -/
inductive Tok where
  | num (n : Nat)
  | str (s : Str)
deriving DecidableEq, Repr

/-- A component instance: identity (address), implementation key, locator, saved plain members and weak references.
    `W` is `Option Nat` for live components (null or address) and `Option Str` while loading (null or recorded locator) (serial.h:98-387). -/
structure Data (W : Type) where
  id : Nat
  key : Str
  loc : Str
  payload : List Nat
  weak : List W
deriving DecidableEq, Repr

mutual
/-- Ownership tree (serial.h:98-387). -/
inductive Node (W : Type) where
  | mk (d : Data W) (kids : Kids W)
/-- Owned slots with the name by which the class exposes them; `null` is an empty unique pointer (serial.h:98-387, component.h:252). -/
inductive Kids (W : Type) where
  | nil
  | cons (name : Str) (n : Node W) (rest : Kids W)
  | null (name : Str) (rest : Kids W)
end

/-- The component itself (serial.h:98-387). -/
def Node.data {W : Type} : Node W → Data W | .mk d _ => d
/-- The components it owns (serial.h:98-387). -/
def Node.kids {W : Type} : Node W → Kids W | .mk _ ks => ks

/-- Ways in which saving or loading fails (serial.h:98-387). -/
inductive Err where
  | ioError      -- inconsistent locator or outer owned/weak locator (serial.h:125, 140, 256)
  | unsupported  -- outer reference found by the check before saving (serial.h:375)
  | throws       -- exception escaping from locator lookup
  | ub           -- dangling weak reference dereferenced
  | badData      -- end of stream or a value of another kind
deriving DecidableEq, Repr

/-- Facts about the implementation classes: `known` keys can be instantiated (src/component.cpp:91-111);
    `isOpaque` classes do not report their underlying components (include/lm/component.h:266). -/
structure Classes where
  known : Str → Bool
  isOpaque : Str → Bool

/-- `loc.rfind(root_loc, 0) != 0` check and `relative_loc.erase(0, root_loc.size())` (serial.h:132-152, 248-270). -/
def relLoc (root loc : Str) : Except Err Str :=
  if root.isEmpty then .ok loc
  else if root.isPrefixOf loc then .ok (loc.drop root.length)
  else .error .ioError

/-- Consistency check of an owned component (serial.h:119-130). -/
def checkLoc (R : Option Comp) (id : Nat) (loc : Str) : Except Err Unit :=
  if loc.isEmpty then .ok ()
  else match Locator.get R loc with
    | .found c => if c.id = id then .ok () else .error .ioError
    | .null => .error .ioError
    | .throws => .error .throws

/-- One weak reference (serial.h:229-271). `locOf` gives the locator of a live instance. -/
def saveWeak (locOf : Nat → Option Str) (root : Str) : Option Nat → Except Err (List Tok)
  | none => .ok [.num 0]
  | some i =>
    match locOf i with
    | none => .error .ub
    | some loc =>
      match relLoc root loc with
      | .error e => .error e
      | .ok r => .ok [.num 1, .str r]

/-- The weak references, serial.h:98-387. -/
def saveWeaks (locOf : Nat → Option Str) (root : Str) : List (Option Nat) → Except Err (List Tok)
  | [] => .ok []
  | w :: ws =>
    match saveWeak locOf root w with
    | .error e => .error e
    | .ok a =>
      match saveWeaks locOf root ws with
      | .error e => .error e
      | .ok b => .ok (a ++ b)

mutual
/-- `save_owned` of a non-null pointer (serial.h:104-159) followed by the class's members through `p->save(ar)`.
    Simplification: members are written in the order plain values, weak references, owned pointers (with sizes);
    the real order is the one of the class's LM_SERIALIZE_IMPL and is the same for saving and loading. -/
def saveNode (R : Option Comp) (locOf : Nat → Option Str) (root : Str) : Node (Option Nat) → Except Err (List Tok)
  | .mk d ks =>
    match checkLoc R d.id d.loc with
    | .error e => .error e
    | .ok _ =>
      match relLoc root d.loc with
      | .error e => .error e
      | .ok r =>
        match saveWeaks locOf root d.weak with
        | .error e => .error e
        | .ok ws =>
          match saveKids R locOf root ks with
          | .error e => .error e
          | .ok ts =>
            .ok ([.num 1, .str d.key, .str r, .num d.payload.length] ++ d.payload.map .num ++ [.num d.weak.length] ++ ws ++ ts)
/-- The owned slots. Simplification: slot names are saved next to the slots; for asset groups they are in the saved index map,
    for the other classes they are fixed by the class (serial.h:98-387). -/
def saveKids (R : Option Comp) (locOf : Nat → Option Str) (root : Str) : Kids (Option Nat) → Except Err (List Tok)
  | .nil => .ok [.num 0]
  | .null n r =>
    match saveKids R locOf root r with
    | .error e => .error e
    | .ok ts => .ok ([.num 1, .str n, .num 0] ++ ts)
  | .cons n c r =>
    match saveNode R locOf root c with
    | .error e => .error e
    | .ok a =>
      match saveKids R locOf root r with
      | .error e => .error e
      | .ok ts => .ok ([.num 1, .str n] ++ a ++ ts)
end

/-- The reported weak references of one component under the visitor of serial.h:364-381. -/
def checkWeaks (locOf : Nat → Option Str) (root : Str) : List (Option Nat) → Except Err Unit
  | [] => .ok ()
  | none :: ws => checkWeaks locOf root ws
  | some i :: ws =>
    match locOf i with
    | none => .error .ub
    | some loc => if root.isPrefixOf loc then checkWeaks locOf root ws else .error .unsupported

mutual
/-- Visitor over the subtree before saving (serial.h:364-382). -/
def checkNode (C : Classes) (locOf : Nat → Option Str) (root : Str) : Node (Option Nat) → Except Err Unit
  | .mk d ks =>
    if C.isOpaque d.key then .ok ()
    else match checkWeaks locOf root d.weak with
      | .error e => .error e
      | .ok _ => checkKids C locOf root ks
/-- As the check of a component, for the owned slots (serial.h:98-387). -/
def checkKids (C : Classes) (locOf : Nat → Option Str) (root : Str) : Kids (Option Nat) → Except Err Unit
  | .nil => .ok ()
  | .null _ r => checkKids C locOf root r
  | .cons _ c r =>
    match checkNode C locOf root c with
    | .error e => .error e
    | .ok _ => checkKids C locOf root r
end

/-- `save_comp_owned` (serial.h:358-387). Both callers pass the component's own locator as `root_loc`
    (src/user.cpp:106, src/pylm.cpp:153-156). -/
def saveComp (C : Classes) (R : Option Comp) (locOf : Nat → Option Str) (t : Node (Option Nat)) : Except Err (List Tok) :=
  match checkNode C locOf t.data.loc t with
  | .error e => .error e
  | .ok _ => saveNode R locOf t.data.loc t

/-- n plain values (serial.h:98-387). -/
def loadNums : Nat → List Tok → Except Err (List Nat × List Tok)
  | 0, ts => .ok ([], ts)
  | n + 1, .num x :: ts =>
    match loadNums n ts with
    | .error e => .error e
    | .ok (xs, ts') => .ok (x :: xs, ts')
  | _ + 1, _ => .error .badData

/-- n weak references; the locator is recorded (serial.h:273-311). With an empty root the locator is absolute, and `root ++ r = r`. -/
def loadWeaks (root : Str) : Nat → List Tok → Except Err (List (Option Str) × List Tok)
  | 0, ts => .ok ([], ts)
  | n + 1, .num v :: ts =>
    if v = 0 then
      match loadWeaks root n ts with
      | .error e => .error e
      | .ok (ws, ts') => .ok (none :: ws, ts')
    else match ts with
      | .str r :: ts1 =>
        match loadWeaks root n ts1 with
        | .error e => .error e
        | .ok (ws, ts') => .ok (some (root ++ r) :: ws, ts')
      | _ => .error .badData
  | _ + 1, _ => .error .badData

mutual
/-- Loading an owned pointer (serial.h:172-214). `fuel` bounds the nesting depth; the entry point passes the stream length.
    `next` numbers new instances. An unknown key leaves a null pointer and does not read the contents (serial.h:204-209). -/
def loadPtr (C : Classes) (root : Str) : Nat → List Tok → Nat → Except Err (Option (Node (Option Str)) × List Tok × Nat)
  | 0, _, _ => .error .badData
  | fuel + 1, .num v :: ts, next =>
    if v = 0 then .ok (none, ts, next)
    else match ts with
      | .str key :: .str r :: ts1 =>
        if C.known key = false then .ok (none, ts1, next)
        else match ts1 with
          | .num n :: ts2 =>
            match loadNums n ts2 with
            | .error e => .error e
            | .ok (xs, .num m :: ts3) =>
              match loadWeaks root m ts3 with
              | .error e => .error e
              | .ok (ws, ts4) =>
                match loadKids C root fuel ts4 (next + 1) with
                | .error e => .error e
                | .ok (ks, ts5, next') => .ok (some (.mk ⟨next, key, root ++ r, xs, ws⟩ ks), ts5, next')
            | .ok (_, _) => .error .badData
          | _ => .error .badData
      | _ => .error .badData
  | _ + 1, _, _ => .error .badData
/-- The owned slots, serial.h:98-387. -/
def loadKids (C : Classes) (root : Str) : Nat → List Tok → Nat → Except Err (Kids (Option Str) × List Tok × Nat)
  | 0, _, _ => .error .badData
  | fuel + 1, .num v :: ts, next =>
    if v = 0 then .ok (.nil, ts, next)
    else match ts with
      | .str n :: ts1 =>
        match loadPtr C root fuel ts1 next with
        | .error e => .error e
        | .ok (none, ts2, next2) =>
          match loadKids C root fuel ts2 next2 with
          | .error e => .error e
          | .ok (ks, ts3, next3) => .ok (.null n ks, ts3, next3)
        | .ok (some c, ts2, next2) =>
          match loadKids C root fuel ts2 next2 with
          | .error e => .error e
          | .ok (ks, ts3, next3) => .ok (.cons n c ks, ts3, next3)
      | _ => .error .badData
  | _ + 1, _, _ => .error .badData
end

/-- First phase of `load_comp` (serial.h:339-342). -/
def loadComp (C : Classes) (root : Str) (ts : List Tok) (next : Nat) : Except Err (Option (Node (Option Str)) × List Tok × Nat) :=
  loadPtr C root ts.length ts next

/-- `*weakptr = comp::get<Component>(loc)` (serial.h:344-348). -/
def resolveWeak (R : Option Comp) : Option Str → Except Err (Option Nat)
  | none => .ok none
  | some loc =>
    match Locator.get R loc with
    | .found c => .ok (some c.id)
    | .null => .ok none
    | .throws => .error .throws

/-- The weak references of one component, second phase (serial.h:98-387). -/
def resolveWeaks (R : Option Comp) : List (Option Str) → Except Err (List (Option Nat))
  | [] => .ok []
  | w :: ws =>
    match resolveWeak R w with
    | .error e => .error e
    | .ok a =>
      match resolveWeaks R ws with
      | .error e => .error e
      | .ok b => .ok (a :: b)

mutual
/-- Second phase of `load_comp`: all recorded references are resolved in the hierarchy `R` that already contains the loaded tree
    (src/assetgroup.cpp:127-133: the slot is registered before deserialization). -/
def resolveNode (R : Option Comp) : Node (Option Str) → Except Err (Node (Option Nat))
  | .mk d ks =>
    match resolveWeaks R d.weak with
    | .error e => .error e
    | .ok ws =>
      match resolveKids R ks with
      | .error e => .error e
      | .ok ks' => .ok (.mk ⟨d.id, d.key, d.loc, d.payload, ws⟩ ks')
/-- The owned slots, second phase (serial.h:98-387). -/
def resolveKids (R : Option Comp) : Kids (Option Str) → Except Err (Kids (Option Nat))
  | .nil => .ok .nil
  | .null n r =>
    match resolveKids R r with
    | .error e => .error e
    | .ok r' => .ok (.null n r')
  | .cons n c r =>
    match resolveNode R c with
    | .error e => .error e
    | .ok c' =>
      match resolveKids R r with
      | .error e => .error e
      | .ok r' => .ok (.cons n c' r')
end

end LM.SaveLoad
