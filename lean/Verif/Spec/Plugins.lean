import Verif.Model.Plugins
/-
  Specification of what plugins make available.
-/
namespace LM.Plugins.Spec

/-- The names under which an implementation can be created. -/
def names (e : Entry) : List Str := if e.alias = [] then [e.key] else [e.key, e.alias]

/-- No name is used twice, within a library or in two of them (none: the program itself). -/
structure Distinct (w : World) : Prop where
  within : ∀ l, (w l).Pairwise (fun e e' => ∀ n ∈ names e, n ∉ names e')
  across : ∀ l l', l ≠ l' → ∀ e ∈ w l, ∀ e' ∈ w l', ∀ n ∈ names e, n ∉ names e'

/-- The component made by the implementation `e` of the program or of a library. -/
def instOf (l : Option Nat) (e : Entry) : Registry.Inst Code := ⟨e.key, ⟨l, e.key, false⟩, ⟨l, e.key, true⟩⟩

/-- Whether the program (none) or the library is in memory. -/
def Present (s : St) : Option Nat → Prop
  | none => True
  | some h => h ∈ s.mapped

/-- A state the program can get to. -/
def Reachable (w : World) (s : St) : Prop := ∃ ops, run w (init w) ops = some s

/-- The plugins of a directory: the names of its regular files that are plugins (see C105_plugin_name). -/
def pluginsIn (entries : List (Str × Bool)) : List Str :=
  entries.filterMap (fun e => if e.2 then pluginName e.1 else none)

/-- The files of the system: the library under a name in a directory. -/
abbrev Files := Str → Str → Option Nat

/-- What dlopen does with a name that has no slash (dlopen(3)): the first directory of the search path having it. -/
def searched (files : Files) (path : List Str) (name : Str) : Option Nat := path.findSome? (fun d => files d name)

end LM.Plugins.Spec
