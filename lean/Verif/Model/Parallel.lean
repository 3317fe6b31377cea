/-
  Parallel loop: src/parallel/parallel_openmp.cpp:40-97 (OpenMP `parallel for schedule(dynamic, 1)`).
  Interleaving semantics over the steps below; `done`, `processed` are std::atomic, `exp` is protected by a mutex.
  The user callbacks always return or throw (they are not modelled further); the progress callback does not throw.
-/
namespace LM.Parallel

/-- Parameters of one loop: iterations, threads of the team, progress interval, and which indices make the callback throw (parallel_openmp.cpp:40-48). -/
structure Cfg where
  n : Nat
  threads : Nat
  interval : Nat
  throws : Nat → Bool

/-- Where a thread is in the loop body (parallel_openmp.cpp:49-92). -/
inductive TS where
  | idle             -- asking the dynamic schedule for the next iteration
  | got (i : Nat)    -- at `if (done)` (parallel_openmp.cpp:51)
  | running (i : Nat) -- inside `processFunc(i, thread_id)` (parallel_openmp.cpp:74)
  | ran              -- at the progress counter (parallel_openmp.cpp:77)
  | report           -- thread 0, at `progressUpdateFunc(processed)` (parallel_openmp.cpp:84)
  | caught (i : Nat) -- in the handler (parallel_openmp.cpp:87-91) with the exception raised for index i
  | fin              -- waiting at the end of the parallel region
deriving DecidableEq, Repr

/-- Shared state and threads, parallel_openmp.cpp:40-97. -/
structure Sys where
  next : Nat            -- next iteration of the dynamic schedule
  st : Nat → TS
  count : Nat → Nat     -- thread_local count (parallel_openmp.cpp:77); survives the loop
  done : Bool
  exp : Option Nat      -- captured exception, identified by the index whose call raised it
  processed : Nat
  calls : List Nat      -- observed: indices passed to processFunc, in order
  ended : List Nat      -- observed: indices whose call returned
  reports : List Nat    -- observed: values passed to progressUpdateFunc, in order

/-- Function update (parallel_openmp.cpp:49-92). -/
def upd {α : Type} (f : Nat → α) (t : Nat) (x : α) : Nat → α := fun u => if u = t then x else f u

/-- Start of a call of `foreach` (parallel_openmp.cpp:41-47); the thread-local counters keep their values. -/
def init (count : Nat → Nat) : Sys :=
  { next := 0, st := fun _ => .idle, count := count, done := false, exp := none, processed := 0, calls := [], ended := [], reports := [] }

/-- One step of thread `t` (parallel_openmp.cpp:49-92). -/
def step (c : Cfg) (s : Sys) (t : Nat) : Sys :=
  match s.st t with
  | .idle => -- schedule(dynamic, 1), parallel_openmp.cpp:48
    if s.next < c.n then { s with next := s.next + 1, st := upd s.st t (.got s.next) }
    else { s with st := upd s.st t .fin }
  | .got i => -- parallel_openmp.cpp:51-53
    if s.done then { s with st := upd s.st t .idle }
    else { s with st := upd s.st t (.running i), calls := s.calls ++ [i] }
  | .running i => -- parallel_openmp.cpp:74
    if c.throws i then { s with st := upd s.st t (.caught i) }
    else { s with st := upd s.st t .ran, ended := s.ended ++ [i] }
  | .ran => -- parallel_openmp.cpp:77-80; parallel_openmp.cpp:83
    let st' := upd s.st t (if t = 0 then .report else .idle)
    if s.count t + 1 ≥ c.interval then { s with st := st', processed := s.processed + (s.count t + 1), count := upd s.count t 0 }
    else { s with st := st', count := upd s.count t (s.count t + 1) }
  | .report => -- parallel_openmp.cpp:84
    { s with st := upd s.st t .idle, reports := s.reports ++ [s.processed] }
  | .caught i => -- parallel_openmp.cpp:87-91
    { s with st := upd s.st t .idle, exp := some i, done := true }
  | .fin => s

/-- A schedule is any sequence of thread numbers of the team (parallel_openmp.cpp:49-92). -/
def run (c : Cfg) (s : Sys) (sched : List Nat) : Sys := sched.foldl (step c) s

/-- The parallel region ends when all threads are at its end (implicit barrier) (parallel_openmp.cpp:48-93). -/
def Done (c : Cfg) (s : Sys) : Prop := ∀ t < c.threads, s.st t = .fin

/-- parallel_openmp.cpp:95-97: what `foreach` does then: return (`none`) or rethrow. -/
def rethrown (s : Sys) : Option Nat := s.exp

end LM.Parallel
