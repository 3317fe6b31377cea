import Verif.Model.Registry
/-
  Specification of the registry, stated over the history of calls only (oldest call first).
-/
namespace LM.Registry.Spec
variable {F : Type}

/-- The call decides what key `k` means. -/
def touchesKey (k : Str) : Op F → Prop
  | .reg k' _ _ => k' = k
  | .unreg k' _ => k' = k

/-- The call decides what alias `a` means (an empty alias argument means "no alias"). -/
def touchesAlias (a : Str) : Op F → Prop
  | .reg _ a' _ => a' = a ∧ a ≠ []
  | .unreg _ a' => a' = a ∧ a ≠ []

/-- The most recent call about key `k` registered `f`. -/
def Live (h : List (Op F)) (k : Str) (f : Funcs F) : Prop :=
  ∃ pre post a, h = pre ++ .reg k a f :: post ∧ ∀ o ∈ post, ¬ touchesKey k o

/-- The most recent call about alias `a` bound it to key `k`. -/
def AliasTo (h : List (Op F)) (a k : Str) : Prop :=
  a ≠ [] ∧ ∃ pre post f, h = pre ++ .reg k a f :: post ∧ ∀ o ∈ post, ¬ touchesAlias a o

/-- A name means the key it is an alias of, or else itself. -/
def Resolves (h : List (Op F)) (name k : Str) : Prop :=
  AliasTo h name k ∨ ((¬ ∃ k', AliasTo h name k') ∧ k = name)

end LM.Registry.Spec

namespace LM.Plugin.Spec

/-- Abstract plugin manager: which paths are loaded and with which handle. -/
abbrev AbsState := Str → Option Nat

/-- Abstract transition and visible outcome of every call. -/
def next (m : AbsState) : Op → AbsState × Out
  | .load p o =>
    match m p, o with
    | some _, _ => (m, .alreadyLoaded)
    | none, none => (m, .ioError)
    | none, some h => ((fun q => if q = p then some h else m q), .ok)
  | .unload p ok =>
    match m p, ok with
    | none, _ => (m, .ioError)
    | some _, false => (m, .ioError)
    | some _, true => ((fun q => if q = p then none else m q), .ok)
  | .unloadAll _ => ((fun _ => none), .ok)

def runAbs (m : AbsState) : List Op → AbsState × List Out
  | [] => (m, [])
  | o :: os => ((runAbs (next m o).1 os).1, (next m o).2 :: (runAbs (next m o).1 os).2)

/-- Number of successful opens of handle `h` in an OS trace. -/
def opens (h : Nat) (t : List Event) : Nat := (t.filter (fun e => e = .opened h)).length
/-- Number of successful closes of handle `h` in an OS trace. -/
def closes (h : Nat) (t : List Event) : Nat := (t.filter (fun e => e = .closeTried h true)).length
/-- Number of table entries holding handle `h`. -/
def held (h : Nat) (m : AMap Str Nat) : Nat := (m.filter (fun e => e.2 = h)).length

/-- The operating system never refuses to close during `unload_all_plugins`. -/
def AllClosesSucceed (ops : List Op) : Prop := ∀ f, Op.unloadAll f ∈ ops → ∀ p, f p = true

end LM.Plugin.Spec
