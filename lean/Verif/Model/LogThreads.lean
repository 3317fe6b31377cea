import Verif.Model.Logger
/-
  The default logger, used by several threads: src/logger.cpp.
  Characters are written to stdout one at a time. Simplified: threads do not call init and shutdown; stores are seen by other threads at once, so data races are detected (`Racy`), not given an effect; the two static variables of log are changed when the lock is taken, while they are only read and written by
  the thread that holds the lock.
-/
namespace LM.Log

/-- The calls threads make, logger.cpp:192-213. -/
inductive TOp
  | log (level severity : Int) (header message : Text)
  | indent (n : Int)
  | setSeverity (n : Int)

/-- The same calls in one thread, logger.cpp:192-213. -/
def TOp.toOp : TOp → Op
  | .log l sv h m => .log l sv h m
  | .indent n => .updateIndentation n
  | .setSeverity n => .setSeverity n

/-- Where a thread is, logger.cpp:50-171, 198-206: outside of the logger, before `mutex_` (logger.cpp:56, 162) with the message accepted, with `mutex_` and the given text yet to be written, or writing without it (logger.cpp:204). -/
inductive Phase
  | idle
  | accepted (op : TOp)
  | writing (p : Text)
  | unlocked (p : Text)

/-- A thread: where it is, and the calls it makes after that (logger.cpp:192-213). -/
structure Thread where
  phase : Phase
  prog : List TOp

/-- The process: the logger, the holder of `mutex_` (logger.cpp:26), the threads, and, to state properties, the calls in the order in which they took effect. -/
structure Sys where
  s : St
  owner : Option Nat
  th : Nat → Thread
  ord : List (Nat × TOp)

/-- One thread goes on (logger.cpp:50-171). -/
def Sys.set (c : Sys) (t : Nat) (x : Thread) : Nat → Thread := fun t' => if t' = t then x else c.th t'

/-- What is done with the lock: log after the comparison of severities (logger.cpp:56-159), or update_indentation (logger.cpp:161-171). -/
def inside (s : St) (x : Ctx) : TOp → St
  | .log l sv h m => ctxLog s { x with severity := sv } l sv h m
  | .indent n => { s with ctx := some (ctxIndent x n) }
  | .setSeverity _ => s

/-- One step of thread `t`; `none` if it is blocked or has ended (logger.cpp:50-213). -/
def Sys.step (c : Sys) (t : Nat) : Option Sys :=
  match (c.th t).phase, (c.th t).prog with
  | .idle, [] => none
  | .idle, .setSeverity n :: r => some { c with s := { c.s with ctx := c.s.ctx.map fun x => { x with severity := n } }, th := c.set t ⟨.idle, r⟩, ord := c.ord ++ [(t, .setSeverity n)] }
  | .idle, .indent n :: r =>
    match c.s.ctx with
    | none => some { c with th := c.set t ⟨.idle, r⟩, ord := c.ord ++ [(t, .indent n)] }
    | some _ => some { c with th := c.set t ⟨.accepted (.indent n), r⟩ }
  | .idle, .log l sv h m :: r =>
    match c.s.ctx with
    | none => some { c with th := c.set t ⟨.unlocked (m ++ ['\n']), r⟩, ord := c.ord ++ [(t, .log l sv h m)] }
    | some x => if x.severity > sv then some { c with th := c.set t ⟨.idle, r⟩, ord := c.ord ++ [(t, .log l sv h m)] } else some { c with th := c.set t ⟨.accepted (.log l sv h m), r⟩ }
  | .accepted op, r =>
    match c.owner, c.s.ctx with
    | none, some x => some { s := { inside c.s x op with out := c.s.out }, owner := some t, th := c.set t ⟨.writing ((inside c.s x op).out.drop c.s.out.length), r⟩, ord := c.ord ++ [(t, op)] }
    | _, _ => none
  | .writing [], r => some { c with owner := none, th := c.set t ⟨.idle, r⟩ }
  | .writing (ch :: p), r => some { c with s := { c.s with out := c.s.out ++ [ch] }, th := c.set t ⟨.writing p, r⟩ }
  | .unlocked [], r => some { c with th := c.set t ⟨.idle, r⟩ }
  | .unlocked (ch :: p), r => some { c with s := { c.s with out := c.s.out ++ [ch] }, th := c.set t ⟨.unlocked p, r⟩ }

/-- A schedule: which thread goes on, in order; a blocked thread waits (logger.cpp:50-213). -/
def Sys.run (c : Sys) : List Nat → Sys
  | [] => c
  | t :: ts => ((c.step t).getD c).run ts

/-- The start: threads outside of the logger (logger.cpp:50-213). -/
def start (s : St) (P : Nat → List TOp) : Sys := ⟨s, none, fun t => ⟨.idle, P t⟩, []⟩

/-- The next step of the thread accesses `severity_` without the lock (logger.cpp:52, 174). -/
def Sys.touches (c : Sys) (t : Nat) : Bool :=
  match (c.th t).phase, (c.th t).prog with
  | .idle, .log _ _ _ _ :: _ => c.s.ctx.isSome
  | .idle, .setSeverity _ :: _ => c.s.ctx.isSome
  | _, _ => false

/-- The next step of the thread writes `severity_`, logger.cpp:174. -/
def Sys.writes (c : Sys) (t : Nat) : Bool :=
  match (c.th t).phase, (c.th t).prog with
  | .idle, .setSeverity _ :: _ => c.s.ctx.isSome
  | _, _ => false

/-- A data race on `severity_`, which is undefined behaviour: two threads can access it next, one of them to write (logger.cpp:52, 174). All other members are only accessed with the lock (logger.cpp:56, 162). -/
def Sys.Racy (c : Sys) : Prop := ∃ t t', t ≠ t' ∧ c.writes t = true ∧ c.touches t' = true

end LM.Log
