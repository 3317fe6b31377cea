import Verif.Model.Parallel
import Mathlib.Order.Basic
/-
  Python functions called from the threads of a parallel loop: src/pylm.cpp:342-350 (parallel.foreach), src/pylm.cpp:772 (Renderer.render, which releases the GIL), the trampolines that acquire it (pylm.cpp:123-1177, pylm.h:411-435),
  and src/parallel/parallel_openmp.cpp:40-97. The loop itself is the model of C17 (Verif/Model/Parallel.lean); here every step of it is refined by the locks it takes: the global interpreter lock (GIL) and the mutex `explock`.
  Of Python is modelled: a thread runs Python code only with the GIL; while it does it may be made to release the GIL and to wait for it again (switch interval, blocking calls); threads of the Python program that are not part of the loop take the GIL and release it at any time.
  Exceptions raised by Python code are C++ objects (error_already_set) whose destruction takes the GIL; the captured exception that is replaced is destroyed under `explock`, unless it is still in use by its own handler, which then destroys it.
  Simplifications: an exception leaves the process function after its last Python section; the assignments of parallel_openmp.cpp:90-91 are one step, as the first is only read with the lock or after the loop.
-/
namespace LM.PyParallel
open LM.Parallel

/-- Parameters: those of the loop; how many times the process function for an index runs Python code (pylm.cpp:345-349: once; a renderer: once for each call of a component implemented in Python), how long each of these sections is,
    and if progress is reported to Python (pylm.cpp:398-401). -/
structure GCfg extends Cfg where
  sections : Nat → Nat
  units : Nat → Nat → Nat
  pyProgress : Bool

/-- Where a thread is within a step of the loop (pylm.cpp:345-349, parallel_openmp.cpp:62-92). -/
inductive Sub where
  | plain
  | native (k : Nat)       -- process function, in C++, before its last k Python sections
  | wait (k : Nat)         -- gil_scoped_acquire, with k sections to follow this one
  | rewait (k w : Nat)     -- made to release the GIL, with w units of work left
  | py (k w : Nat)         -- in Python
  | repWait                -- progress: gil_scoped_acquire (pylm.cpp:399)
  | repPy                  -- progress: in Python (pylm.cpp:400)
  | locked                 -- handler: has explock (parallel_openmp.cpp:89)
  | lockedWait             -- destruction of the replaced exception: gil_scoped_acquire
  | lockedPy               -- destruction of the replaced exception
  | leaving                -- end of the handler (parallel_openmp.cpp:92)
  | leaveWait              -- destruction of the own exception, if it has been replaced meanwhile: gil_scoped_acquire
  | leavePy                -- destruction of the own exception
  deriving DecidableEq

/-- Who has the GIL (pylm.cpp:344-347). other: a thread of the Python program that does not take part in the loop. -/
inductive Gil where
  | free
  | thread (t : Nat)
  | other
  deriving DecidableEq

/-- The call of the bound function by the main thread, which is thread 0 of the team (pylm.cpp:342-350): before gil_scoped_release, in the loop, before the destructor of gil_scoped_release, after it. -/
inductive Phase where
  | calling
  | loop
  | finished
  | returned
  deriving DecidableEq

/-- The state of the program (pylm.cpp:342-350, parallel_openmp.cpp:40-97). -/
structure GSys where
  base : Sys
  sub : Nat → Sub
  gil : Gil
  explock : Option Nat
  phase : Phase
  pyCalls : List Nat  -- observed: the indices for which Python code was entered, in order

/-- Python calls the function (pylm.cpp:342): the main thread has the GIL. -/
def ginit (count : Nat → Nat) : GSys :=
  { base := init count, sub := fun _ => .plain, gil := .thread 0, explock := none, phase := .calling, pyCalls := [] }

/-- A step of the thread t of the team (pylm.cpp:345-349, parallel_openmp.cpp:49-92); none: it is blocked. `b` resolves what the thread does not determine: to be made to release the GIL, and which handler destroys a replaced exception. -/
def threadStep (c : GCfg) (s : GSys) (t : Nat) (b : Bool) : Option GSys :=
  match s.base.st t, s.sub t with
  | .idle, .leaving => some { s with sub := upd s.sub t (if b then .leaveWait else .plain) }
  | .idle, .leaveWait => if s.gil = .free then some { s with gil := .thread t, sub := upd s.sub t .leavePy } else none
  | .idle, .leavePy => some { s with gil := .free, sub := upd s.sub t .plain }
  | .idle, _ => some { s with base := step c.toCfg s.base t }
  | .got i, _ =>
    if s.base.done then some { s with base := step c.toCfg s.base t }
    else some { s with base := step c.toCfg s.base t, sub := upd s.sub t (.native (c.sections i)) }
  | .running _, .native (k + 1) => some { s with sub := upd s.sub t (.wait k) }
  | .running i, .wait k =>
    if s.gil = .free then some { s with gil := .thread t, sub := upd s.sub t (.py k (c.units i k)), pyCalls := s.pyCalls ++ [i] } else none
  | .running _, .py k (w + 1) =>
    if b then some { s with gil := .free, sub := upd s.sub t (.rewait k w) } else some { s with sub := upd s.sub t (.py k w) }
  | .running _, .rewait k w => if s.gil = .free then some { s with gil := .thread t, sub := upd s.sub t (.py k w) } else none
  | .running _, .py k 0 => some { s with gil := .free, sub := upd s.sub t (.native k) }
  | .running _, _ => some { s with base := step c.toCfg s.base t, sub := upd s.sub t .plain }
  | .ran, _ => some { s with base := step c.toCfg s.base t }
  | .report, .repWait => if s.gil = .free then some { s with gil := .thread t, sub := upd s.sub t .repPy } else none
  | .report, .repPy => some { s with gil := .free, base := step c.toCfg s.base t, sub := upd s.sub t .plain }
  | .report, _ => if c.pyProgress then some { s with sub := upd s.sub t .repWait } else some { s with base := step c.toCfg s.base t }
  | .caught _, .locked =>
    if s.base.exp.isSome && b then some { s with sub := upd s.sub t .lockedWait }
    else some { s with base := step c.toCfg s.base t, explock := none, sub := upd s.sub t .leaving }
  | .caught _, .lockedWait => if s.gil = .free then some { s with gil := .thread t, sub := upd s.sub t .lockedPy } else none
  | .caught _, .lockedPy => some { s with gil := .free, base := step c.toCfg s.base t, explock := none, sub := upd s.sub t .leaving }
  | .caught _, _ => if s.explock = none then some { s with explock := some t, sub := upd s.sub t .locked } else none
  | .fin, _ => none

/-- Who makes the next step: a thread of the team, the main thread outside of the loop, or another thread of the Python program (pylm.cpp:342-350). -/
inductive Act where
  | thread (t : Nat) (b : Bool)
  | main
  | other
  deriving DecidableEq

/-- One step (pylm.cpp:342-350, parallel_openmp.cpp:40-97); none: this one cannot make a step now. -/
def gstep (c : GCfg) (s : GSys) : Act → Option GSys
  | .thread t b => if s.phase = .loop ∧ t < c.threads then threadStep c s t b else none
  | .main =>
    match s.phase with
    | .calling => some { s with gil := .free, phase := .loop }   -- gil_scoped_release, pylm.cpp:344
    | .loop => if ∀ t < c.threads, s.base.st t = .fin then some { s with phase := .finished } else none   -- end of the parallel region, parallel_openmp.cpp:93
    | .finished => if s.gil = .free then some { s with gil := .thread 0, phase := .returned } else none   -- pylm.cpp:350
    | .returned => none
  | .other =>
    match s.gil with
    | .free => some { s with gil := .other }
    | .other => some { s with gil := .free }
    | .thread _ => none

/-- A history of steps (pylm.cpp:342-350, parallel_openmp.cpp:40-97); steps that cannot be made are skipped. -/
def grun (c : GCfg) (s : GSys) (as : List Act) : GSys := as.foldl (fun s a => match gstep c s a with | some s' => s' | none => s) s

/-- parallel.foreach (pylm.cpp:342-350): the process function is one call of the Python function, for index i `units i` long; progress is not reported. -/
def foreachCfg (n threads interval : Nat) (throws : Nat → Bool) (units : Nat → Nat) : GCfg :=
  { n := n, threads := threads, interval := interval, throws := throws, sections := fun _ => 1, units := fun i _ => units i, pyProgress := false }

end LM.PyParallel
