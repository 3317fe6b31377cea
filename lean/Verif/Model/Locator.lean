import Verif.Model.AMap
/-
  Component locators: include/lm/component.h:139-197 and src/component.cpp:322-361.
-/
namespace LM.Locator

/-- `loc.find_last_of('.')` + `substr`: the part before and the part after the last dot; `none` if there is no dot (npos) (component.h:150-197). -/
def splitLast : Str → Option (Str × Str)
  | [] => none
  | c :: cs =>
    match splitLast cs with
    | some (a, b) => some (c :: a, b)
    | none => if c = '.' then some ([], cs) else none

/-- include/lm/component.h:148-154 `parent_loc`. -/
def parentLoc (loc : Str) : Str :=
  match splitLast loc with
  | none => []
  | some (a, _) => a

/-- include/lm/component.h:164-168 `name`. `none` models the failing assertion when the locator has no dot
    (in release builds `i + 1` wraps to 0 and the whole locator is returned; the assertion makes it a precondition). -/
def name (loc : Str) : Option Str :=
  match splitLast loc with
  | none => none
  | some (_, b) => some b

/-- include/lm/component.h:180-184 `make_loc(base, child)`; `none` models the failing assertions. -/
def makeLoc (base child : Str) : Option Str :=
  if base.isEmpty || child.isEmpty then none else some (base ++ '.' :: child)

/-- src/component.cpp:334-340 `splitFirst`: given "xxx.yyy.zzz" returns "xxx" and "yyy.zzz"; second part empty when no dot. -/
def splitFirst : Str → Str × Str
  | [] => ([], [])
  | c :: cs => if c = '.' then ([], cs) else ((c :: (splitFirst cs).1), (splitFirst cs).2)

/-- A component as seen by locator lookup: identity, stored locator, and named underlying components.
    `strict` marks classes whose `underlying` throws on an unknown name instead of returning null:
    src/model/model_wavefrontobj.cpp:70-72 uses `assets_map_.at(name)`. All other classes return nullptr
    (include/lm/component.h:252, src/assetgroup.cpp:28-34, ...). -/
inductive Comp where
  | mk (id : Nat) (loc : Str) (strict : Bool) (children : List (Str × Comp))

namespace Comp
/-- Identity of a component (component.cpp:322-361). -/
def id : Comp → Nat | mk i _ _ _ => i
/-- Its locator, component.h:221-236. -/
def loc : Comp → Str | mk _ l _ _ => l
/-- Whether its `underlying` uses `at` (model_wavefrontobj.cpp:71) and so throws for unknown names; component.cpp:322-361. -/
def strict : Comp → Bool | mk _ _ s _ => s
/-- The components `underlying` can return, component.h:252. -/
def children : Comp → List (Str × Comp) | mk _ _ _ cs => cs
end Comp

/-- Result of a lookup: component, null, or a C++ exception escaping (component.cpp:322-361). -/
inductive Res where
  | found (c : Comp)
  | null
  | throws

/-- lookup among the named children (first entry with this name; std::unordered_map lookup) (component.h:252, assetgroup.cpp:22-26). -/
def findChild : List (Str × Comp) → Str → Option Comp
  | [], _ => none
  | (n, c) :: cs, s => if n = s then some c else findChild cs s

/-- `Component::underlying(name)` (component.h:252, assetgroup.cpp:22-26, model_wavefrontobj.cpp:70-72). -/
def underlying (c : Comp) (s : Str) : Res :=
  match findChild c.children s with
  | some d => .found d
  | none => if c.strict then .throws else .null

theorem splitFirst_snd_length (s : Str) (h : s ≠ []) : (splitFirst s).2.length < s.length := by
  induction s with
  | nil => exact absurd rfl h
  | cons c cs ih =>
    unfold splitFirst
    split
    · simp
    · cases cs with
      | nil => simp [splitFirst]
      | cons d ds => exact Nat.lt_succ_of_lt (ih (by simp))

/-- src/component.cpp:348-354: the loop `while (curr && !remaining.empty())`. -/
def walk (curr : Comp) (remaining : Str) : Res :=
  if h : remaining = [] then .found curr
  else
    match underlying curr (splitFirst remaining).1 with
    | .found d => walk d (splitFirst remaining).2
    | .null => .null
    | .throws => .throws
termination_by remaining.length
decreasing_by exact splitFirst_snd_length remaining h

/-- src/component.cpp:322-361 `get`. `root = none` models a root that was not registered. -/
def get (root : Option Comp) (locator : Str) : Res :=
  match root with
  | none => .null
  | some r =>
    if locator.isEmpty then .null
    else if (splitFirst locator).1 ≠ ['$'] then .null
    else walk r (splitFirst locator).2

end LM.Locator
