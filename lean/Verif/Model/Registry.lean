import Verif.Model.AMap
/-
  Model of the implementation registry in src/component.cpp.
-/
namespace LM.Registry

/-- src/component.cpp:137-140 `CreateAndReleaseFunctions`.
    A `std::function` is modelled by an abstract identity `F`. -/
structure Funcs (F : Type) where
  create : F
  release : F
deriving DecidableEq, Repr

/-- src/component.cpp:141-142 `func_map_`, `func_alias_map_`. -/
structure Reg (F : Type) where
  funcs : AMap Str (Funcs F)
  aliases : AMap Str Str
deriving Repr

/-- Initial (empty) registry: a default-constructed ComponentContext (component.cpp:24-73). -/
def Reg.init {F : Type} : Reg F := ⟨[], []⟩

/-- What `create_comp` records in the instance: src/component.cpp:190-193
    (`Access::key`, `Access::create_func`, `Access::release_func`); the instance itself was produced by `create`. -/
structure Inst (F : Type) where
  key : Str
  madeBy : F
  release : F
deriving DecidableEq, Repr

variable {F : Type}

/-- src/component.cpp:168-196 `create_comp`. Logging is dropped. `none` models `nullptr`. -/
def createComp (r : Reg F) (name : Str) : Option (Inst F) :=
  let key := match r.aliases.find? name with
    | none => name
    | some k => k
  match r.funcs.find? key with
  | none => none
  | some f => some { key := key, madeBy := f.create, release := f.release }

/-- src/component.cpp:198-210 `reg`. The warning on override is dropped. -/
def reg (r : Reg F) (key aliasName : Str) (f : Funcs F) : Reg F :=
  { funcs := r.funcs.insert key f
    aliases := if aliasName.isEmpty then r.aliases else r.aliases.insert aliasName key }

/-- src/component.cpp:212-217 `unreg`. -/
def unreg (r : Reg F) (key aliasName : Str) : Reg F :=
  { funcs := r.funcs.erase key
    aliases := if aliasName.isEmpty then r.aliases else r.aliases.erase aliasName }

/-- The registry API calls. RegEntry (include/lm/component.h:739-755) issues `reg` in its
    constructor and `unreg` in its destructor. -/
inductive Op (F : Type) where
  | reg (key aliasName : Str) (f : Funcs F)
  | unreg (key aliasName : Str)
deriving DecidableEq, Repr

/-- One call, component.cpp:91-142. -/
def step (r : Reg F) : Op F → Reg F
  | .reg k a f => reg r k a f
  | .unreg k a => unreg r k a

/-- Registry after a history (oldest call first) (component.cpp:91-142). -/
def run (h : List (Op F)) : Reg F := h.foldl step Reg.init

end LM.Registry

namespace LM.Plugin

/-- OS-level events performed by `SharedLibrary` (src/component.cpp:24-73). A handle is identified by a number
    chosen by the environment. -/
inductive Event where
  | opened (h : Nat)
  | closeTried (h : Nat) (ok : Bool)
deriving DecidableEq, Repr

/-- src/component.cpp:145 `plugins_` plus the trace of OS events. -/
structure St where
  plugins : AMap Str Nat
  trace : List Event
deriving Repr

/-- No plugin loaded, component.cpp:24-73. -/
def St.init : St := ⟨[], []⟩

/-- Outcomes of the plugin calls, component.cpp:145-269. -/
inductive Out where
  | ok
  | alreadyLoaded
  | ioError
deriving DecidableEq, Repr

/-- Calls with the answers of the operating system: `dlopen` returns a handle or null; `dlclose` succeeds or not.
    `plugin_path` (src/component.cpp:158-165) is the identity in release mode and appends "-debug" in debug mode,
    an injective renaming, so paths are used directly. -/
inductive Op where
  | load (path : Str) (dlopen : Option Nat)
  | unload (path : Str) (dlclose : Bool)
  | unloadAll (dlclose : Str → Bool)

/-- src/component.cpp:219-249 `load_plugin`. -/
def load (s : St) (path : Str) (dlopen : Option Nat) : St × Out :=
  match s.plugins.find? path with
  | some _ => (s, .alreadyLoaded)
  | none =>
    match dlopen with
    | none => (s, .ioError)
    | some h => ({ plugins := s.plugins.insert path h, trace := s.trace ++ [.opened h] }, .ok)

/-- src/component.cpp:251-269 `unload_plugin`. -/
def unload (s : St) (path : Str) (dlclose : Bool) : St × Out :=
  match s.plugins.find? path with
  | none => (s, .ioError)
  | some h =>
    let s' : St := { s with trace := s.trace ++ [.closeTried h dlclose] }
    if dlclose then ({ s' with plugins := s'.plugins.erase path }, .ok) else (s', .ioError)

/-- src/component.cpp:302-307 `unload_all_plugins`; results of `unload()` are ignored. -/
def unloadAll (s : St) (dlclose : Str → Bool) : St × Out :=
  ({ plugins := [], trace := s.trace ++ s.plugins.map (fun e => .closeTried e.2 (dlclose e.1)) }, .ok)

/-- One call, component.cpp:145-269. -/
def step (s : St) : Op → St × Out
  | .load p o => load s p o
  | .unload p o => unload s p o
  | .unloadAll o => unloadAll s o

/-- A history of calls, oldest first (component.cpp:145-269). -/
def run (s : St) : List Op → St × List Out
  | [] => (s, [])
  | o :: os =>
    let (s', out) := step s o
    let (s'', outs) := run s' os
    (s'', out :: outs)

/-- include/lm/component.h:701-706: the constructor of ScopedLoadPlugin loads the paths one after the other.
    `load_plugin` throws on failure, the constructor then does not complete and the destructor is not run.
    Returns the state and whether the constructor completed. -/
def scopedLoad (s : St) : List (Str × Option Nat) → St × Bool
  | [] => (s, true)
  | (p, o) :: rest =>
    match load s p o with
    | (s', .ioError) => (s', false)
    | (s', _) => scopedLoad s' rest

end LM.Plugin
