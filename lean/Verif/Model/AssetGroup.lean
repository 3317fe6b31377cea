import Verif.Model.Locator
/-
  Asset group, src/assetgroup.cpp. References between assets are modelled separately (Verif/Model/Reload.lean).
-/
namespace LM.AssetGroup

/-- An asset instance: identity, locator set by create_without_construct / load_comp,
    and whether construct()/load() has completed (assetgroup.cpp:14-15, 63-67). -/
structure Asset where
  id : Nat
  loc : Str
  ready : Bool
deriving DecidableEq, Repr

/-- src/assetgroup.cpp:14-15 `assets_` (null slots are `none`), `asset_index_map_`; `loc` is the group's own locator. -/
structure St where
  loc : Str
  slots : List (Option Asset)
  index : AMap Str Nat
deriving Repr

/-- A default constructed group, assetgroup.cpp:14-15. -/
def St.init (loc : Str) : St := ⟨loc, [], []⟩

/-- Characters of the class `[:\w_-]`; `\w` is [A-Za-z0-9_] in the default (C) locale (assetgroup.cpp:38-42). -/
def validChar (c : Char) : Bool :=
  c = ':' || c = '-' || c = '_' || ('a' ≤ c && c ≤ 'z') || ('A' ≤ c && c ≤ 'Z') || ('0' ≤ c && c ≤ '9')

/-- src/assetgroup.cpp:38-42 `valid_asset_name`: full match of `[:\w_-]+`. -/
def validName (n : Str) : Bool := !n.isEmpty && n.all validChar

/-- Outcome of creating and constructing the new asset (src/assetgroup.cpp:63-67, 85, 112). -/
inductive LoadRes where
  | createFails               -- create_without_construct returned null
  | constructs (id : Nat)     -- created, construct() returned
  | throws (id : Nat)         -- created, construct() threw
deriving DecidableEq, Repr

/-- Outcome of deserialization (src/assetgroup.cpp:134-135). -/
inductive SerRes where
  | ok (id : Nat)
  | throws                    -- file missing / truncated / unknown key
deriving DecidableEq, Repr

/-- The calls of the API, assetgroup.cpp:28-138. -/
inductive Op where
  | loadAsset (name : Str) (r : LoadRes)
  | loadSerialized (name : Str) (r : SerRes)
deriving DecidableEq, Repr

/-- Their outcomes, assetgroup.cpp:28-138. -/
inductive Out where
  | ptr (p : Option Nat)      -- returned pointer
  | exception
  | ub                        -- out-of-range `assets_[i]`
deriving DecidableEq, Repr

/-- src/assetgroup.cpp:28-34 `underlying`: `none` for an unknown name; `.at` throws when out of range (modelled as `none` too, proved
    unreachable). -/
def underlying (s : St) (name : Str) : Option Asset :=
  match s.index.find? name with
  | none => none
  | some i => (s.slots[i]?).join

/-- src/assetgroup.cpp:22-26 `foreach_underlying`: assets in slot order. -/
def enumerate (s : St) : List (Option Asset) := s.slots

/-- src/assetgroup.cpp:45-116 `load_asset` (without the weak reference update, lines 87-103, see Verif/Model/Reload.lean). -/
def loadAsset (s : St) (name : Str) (r : LoadRes) : St × Out :=
  if validName name = false then (s, .ptr none)
  else match r with
    | .createFails => (s, .ptr none)
    | .constructs id =>
      let a : Asset := { id := id, loc := s.loc ++ '.' :: name, ready := true }
      match s.index.find? name with
      | some i => if i < s.slots.length then ({ s with slots := s.slots.set i (some a) }, .ptr (some id)) else (s, .ub)
      | none => ({ s with index := s.index.insert name s.slots.length, slots := s.slots ++ [some a] }, .ptr (some id))
    | .throws id =>
      let a : Asset := { id := id, loc := s.loc ++ '.' :: name, ready := false }
      match s.index.find? name with
      | some i => if i < s.slots.length then ({ s with slots := s.slots.set i (some a) }, .exception) else (s, .ub)
      | none => ({ s with index := s.index.insert name s.slots.length, slots := s.slots ++ [some a] }, .exception)

/-- src/assetgroup.cpp:118-138 `load_serialized`. The name is not validated. -/
def loadSerialized (s : St) (name : Str) (r : SerRes) : St × Out :=
  match s.index.find? name with
  | some _ => (s, .exception)
  | none =>
    let s1 := { s with index := s.index.insert name s.slots.length }
    match r with
    | .throws => ({ s1 with slots := s.slots ++ [none] }, .exception)
    | .ok id => ({ s1 with slots := s.slots ++ [some { id := id, loc := s.loc ++ '.' :: name, ready := true }] }, .ptr (some id))

/-- One call, assetgroup.cpp:28-138. -/
def step (s : St) : Op → St × Out
  | .loadAsset n r => loadAsset s n r
  | .loadSerialized n r => loadSerialized s n r

/-- A history of calls, oldest first (assetgroup.cpp:28-138). -/
def run (s : St) : List Op → St × List Out
  | [] => (s, [])
  | o :: os => ((run (step s o).1 os).1, (step s o).2 :: (run (step s o).1 os).2)

end LM.AssetGroup
