import Verif.Model.Registry
/-
  Model of plugins as a user meets them: scope guards (include/lm/component.h:690-713), what loading and unloading a
  library does to the registered implementations, and the loading of a directory (src/component.cpp:219-313).
-/
namespace LM.Plugin

/-- include/lm/component.h:707-711: the destructor of ScopedLoadPlugin unloads the paths one after the other, with the
    answers of the system. An exception leaving a destructor ends the program: none. -/
def scopedLeave (s : St) : List (Str × Bool) → Option St
  | [] => some s
  | (p, ok) :: rest =>
    match unload s p ok with
    | (_, .ioError) => none
    | (s', _) => scopedLeave s' rest

end LM.Plugin

namespace LM.Plugins
open LM.Registry (Funcs Reg Inst)

/-- A piece of code: in the library `lib` (none: in the program itself), the create or release function of the
    implementation `key`, component.h:744-750. -/
structure Code where
  lib : Option Nat
  key : Str
  release : Bool
deriving DecidableEq, Repr

/-- One LM_COMP_REG_IMPL (component.h:784-793): a static RegEntry with a key and possibly an alias (empty: none). -/
structure Entry where
  key : Str
  alias : Str
deriving DecidableEq, Repr

/-- The two functions a RegEntry registers, component.h:744-750. -/
def funcsOf (l : Option Nat) (e : Entry) : Funcs Code := ⟨⟨l, e.key, false⟩, ⟨l, e.key, true⟩⟩

/-- What the program and every library of the system contain: the RegEntry objects of each, in the order of their
    initialisation (component.h:739-751). -/
abbrev World := Option Nat → List Entry

/-- The constructors of RegEntry run when a library comes into memory, component.h:739-751. -/
def enter (r : Reg Code) (l : Option Nat) : List Entry → Reg Code
  | [] => r
  | e :: es => enter (Registry.reg r e.key e.alias (funcsOf l e)) l es

/-- The destructors of RegEntry run when a library leaves memory, last one first, component.h:752-755. -/
def leave (r : Reg Code) : List Entry → Reg Code
  | [] => r
  | e :: es => Registry.unreg (leave r es) e.key e.alias

/-- Answer of dlclose (component.cpp:53-68): refused; accepted, but the library stays in memory; accepted, and the
    library leaves memory unless it is open somewhere else. -/
inductive Close where
  | refused
  | kept
  | gone
deriving DecidableEq, Repr

/-- The registry, the loaded plugins (component.cpp:141-146), how often each library is open, the libraries in memory,
    and the components created by the user that are still alive. -/
structure St where
  reg : Reg Code
  plugins : AMap Str Nat
  count : Nat → Nat
  mapped : List Nat
  objs : List (Inst Code)

/-- The program starts: its own implementations are registered, component.h:739-751. -/
def init (w : World) : St := ⟨enter Reg.init none (w none), [], fun _ => 0, [], []⟩

/-- Whether code is in memory (the program's own code always is); calling code that is not is undefined. -/
def inMemory (s : St) (l : Option Nat) : Bool :=
  match l with
  | none => true
  | some h => decide (h ∈ s.mapped)

/-- dlopen of library h succeeded (component.cpp:40): its initialisers run if it was not in memory. -/
def opened (w : World) (s : St) (h : Nat) : St :=
  { s with
    count := fun g => if g = h then s.count g + 1 else s.count g
    mapped := if h ∈ s.mapped then s.mapped else h :: s.mapped
    reg := if h ∈ s.mapped then s.reg else enter s.reg (some h) (w (some h)) }

/-- dlclose of library h (component.cpp:59): when it was open once only and the system lets it go, its destructors run. -/
def closed (w : World) (s : St) (h : Nat) (c : Close) : St :=
  match c with
  | .refused => s
  | .kept => { s with count := fun g => if g = h then s.count g - 1 else s.count g }
  | .gone =>
    if s.count h = 1 then
      { s with
        count := fun g => if g = h then s.count g - 1 else s.count g
        mapped := s.mapped.filter (fun g => !decide (g = h))
        reg := leave s.reg (w (some h)) }
    else { s with count := fun g => if g = h then s.count g - 1 else s.count g }

/-- Calls of the user, with the answers of the system. -/
inductive Op where
  | load (path : Str) (dlopen : Option Nat)
  | unload (path : Str) (dlclose : Close)
  | unloadAll (dlclose : Str → Close)
  | create (name : Str)
  | destroy (n : Nat)

/-- What a call answers: done, nothing to do, an exception, or the created component (none: null). -/
inductive Out where
  | ok
  | alreadyLoaded
  | ioError
  | made (i : Option (Inst Code))
deriving DecidableEq, Repr

/-- src/component.cpp:219-249 `load_plugin`. -/
def load (w : World) (s : St) (path : Str) (dlopen : Option Nat) : St × Out :=
  match s.plugins.find? path with
  | some _ => (s, .alreadyLoaded)
  | none =>
    match dlopen with
    | none => (s, .ioError)
    | some h => ({ opened w s h with plugins := s.plugins.insert path h }, .ok)

/-- src/component.cpp:251-269 `unload_plugin`. -/
def unload (w : World) (s : St) (path : Str) (dlclose : Close) : St × Out :=
  match s.plugins.find? path with
  | none => (s, .ioError)
  | some h =>
    if dlclose = .refused then (s, .ioError)
    else ({ closed w s h dlclose with plugins := s.plugins.erase path }, .ok)

/-- The loop of unload_all_plugins, src/component.cpp:302-305; results of `unload()` are ignored. -/
def closeAll (w : World) (s : St) (dlclose : Str → Close) : List (Str × Nat) → St
  | [] => s
  | (p, h) :: rest => closeAll w (closed w s h (dlclose p)) dlclose rest

/-- One call; none: code that is not in memory is called (or a component is destroyed that does not exist).
    create_comp (component.cpp:168-196) calls the create function found under the name; releasing a component
    (component.h:300-310) calls the release function stored in it when it was created. -/
def step (w : World) (s : St) : Op → Option (St × Out)
  | .load p o => some (load w s p o)
  | .unload p c => some (unload w s p c)
  | .unloadAll c => some ({ closeAll w s c s.plugins with plugins := [] }, .ok)
  | .create name =>
    match Registry.createComp s.reg name with
    | none => some (s, .made none)
    | some i => if inMemory s i.madeBy.lib then some ({ s with objs := s.objs ++ [i] }, .made (some i)) else none
  | .destroy n =>
    match s.objs[n]? with
    | none => none
    | some i => if inMemory s i.release.lib then some ({ s with objs := s.objs.eraseIdx n }, .ok) else none

/-- A history of calls, oldest first (component.cpp:140-313). -/
def run (w : World) (s : St) : List Op → Option St
  | [] => some s
  | o :: os =>
    match step w s o with
    | none => none
    | some (s', _) => run w s' os

/-- foreach_registered, src/component.cpp:309-313: the keys the callback is called with. -/
def foreachRegistered (s : St) : List Str := s.reg.funcs.map Prod.fst

/-- The name of the plugin in a file name: the pattern ^([0-9a-z_]+)\.so$ and path::stem, src/component.cpp:282,
    293-298 (Linux). -/
def pluginName (file : Str) : Option Str :=
  let stem := file.take (file.length - 3)
  if file.drop (file.length - 3) = ".so".toList ∧ stem ≠ [] ∧
      stem.all (fun c => ('0' ≤ c ∧ c ≤ '9') ∨ ('a' ≤ c ∧ c ≤ 'z') ∨ c = '_') then some stem
  else none

/-- The loop of load_plugin_directory, src/component.cpp:287-299. `entries`: the names in the directory, in the order
    of the directory iterator, with whether they are regular files; `dlopen`: the answers of the system. The plugin is
    loaded by its stem, without the directory. -/
def loadEntries (w : World) (s : St) (dlopen : Str → Option Nat) : List (Str × Bool) → St × Out
  | [] => (s, .ok)
  | (file, regular) :: rest =>
    if regular = false then loadEntries w s dlopen rest
    else match pluginName file with
      | none => loadEntries w s dlopen rest
      | some stem =>
        match load w s stem (dlopen (stem ++ ".so".toList)) with
        | (s', .ioError) => (s', .ioError)
        | (s', _) => loadEntries w s' dlopen rest

/-- load_plugin_directory, src/component.cpp:271-300; none for a directory that does not exist. -/
def loadDirectory (w : World) (s : St) (dlopen : Str → Option Nat) (entries : Option (List (Str × Bool))) : St × Out :=
  match entries with
  | none => (s, .ok)
  | some es => loadEntries w s dlopen es

end LM.Plugins
