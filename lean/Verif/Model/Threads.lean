/-
  Number and identity of the threads of parallel loops: src/parallel/parallel_openmp.cpp:22-47, 63 and
  include/lm/parallel.h:45-63. The rules of OpenMP that matter are part of the model:
  the number set by omp_set_num_threads belongs to the calling thread only; a loop started outside of other loops gets a
  team of at least one and at most that many threads; a loop started inside a loop runs on the thread that started it
  (nested parallelism is off unless the user turns it on); omp_get_thread_num counts within the innermost team.
-/
namespace LM.Threads

/-- Conversion to unsigned int (parallel_openmp.cpp:25, 27). -/
def toUnsigned (n : Int) : Int := n % 4294967296

/-- Conversion to int (parallel_openmp.cpp:25, 27). -/
def toInt (n : Int) : Int := (n + 2147483648) % 4294967296 - 2147483648

/-- num_threads_, parallel_openmp.cpp:25-28. `hw`: std::thread::hardware_concurrency(); `prop`: the property
    num_threads, an integer (none: not given). json::value is called for the type of its default, unsigned int. -/
def numThreads (hw : Nat) (prop : Option Int) : Int :=
  let v := toInt (toUnsigned (match prop with | none => hw | some n => n))
  if v ≤ 0 then toInt (toUnsigned (hw + toUnsigned v)) else v

/-- A place where code runs: on a thread of the system, outside of loops (`path` empty) or in the callback of a loop, where
    `path` has the number of the thread in the team of each loop around, innermost first (parallel_openmp.cpp:63). -/
structure Place where
  thread : Nat
  path : List Nat
deriving DecidableEq, Repr

/-- omp_get_thread_num() (parallel_openmp.cpp:37, 63). -/
def threadNum (p : Place) : Nat :=
  match p.path with
  | [] => 0
  | i :: _ => i

/-- main_thread(), parallel_openmp.cpp:36-38. -/
def mainThread (p : Place) : Bool := threadNum p == 0

/-- `icv`: the number of threads for loops started by each thread of the system; `num`: num_threads_ of the current
    context (parallel_openmp.cpp:20); `by_`: the thread that made it; `team`: the size of the team of the loop started at a
    place (none: no loop). -/
structure St where
  icv : Nat → Nat
  num : Option Int
  by_ : Option Nat
  team : Place → Option Nat

/-- The program starts: the runtime has its own default for every thread (before parallel_openmp.cpp:29). -/
def init (dflt : Nat) : St := ⟨fun _ => dflt, none, none, fun _ => none⟩

/-- A callback is running at the place: it is on a thread of the system, or on a member of the team of a loop
    (parallel_openmp.cpp:48-74). -/
def Running (s : St) (p : Place) : Prop :=
  match p.path with
  | [] => True
  | i :: rest => ∃ k, s.team ⟨p.thread, rest⟩ = some k ∧ i < k

/-- What can happen: parallel::init on a thread (parallel_openmp.cpp:23-30), the beginning and the end of a loop started at
    a place, with the size of its team (parallel_openmp.cpp:48, 93). -/
inductive Act where
  | init (thread : Nat) (prop : Option Int)
  | begin (p : Place) (size : Nat)
  | fin (p : Place)

/-- One event. `hw`: hardware_concurrency(); `odd`: what omp_set_num_threads makes of a number that is not positive
    (up to the implementation, at least 1). parallel_openmp.cpp:23-30, 48-93. -/
inductive Step (hw : Nat) (odd : Int → Nat) : St → Act → St → Prop where
  | init (s : St) (t : Nat) (prop : Option Int) (h : s.team ⟨t, []⟩ = none) :
      Step hw odd s (.init t prop)
        { s with
          icv := fun u => if u = t then (if 0 < numThreads hw prop then (numThreads hw prop).toNat else odd (numThreads hw prop)) else s.icv u
          num := some (numThreads hw prop)
          by_ := some t }
  | outer (s : St) (t k : Nat) (hn : s.num.isSome) (h : s.team ⟨t, []⟩ = none) (h1 : 1 ≤ k) (hk : k ≤ s.icv t) :
      Step hw odd s (.begin ⟨t, []⟩ k) { s with team := fun q => if q = ⟨t, []⟩ then some k else s.team q }
  | inner (s : St) (t i : Nat) (rest : List Nat) (hn : s.num.isSome) (hr : Running s ⟨t, i :: rest⟩) (h : s.team ⟨t, i :: rest⟩ = none) :
      Step hw odd s (.begin ⟨t, i :: rest⟩ 1) { s with team := fun q => if q = ⟨t, i :: rest⟩ then some 1 else s.team q }
  | fin (s : St) (p : Place) (k : Nat) (h : s.team p = some k) (hq : ∀ i, s.team ⟨p.thread, i :: p.path⟩ = none) :
      Step hw odd s (.fin p) { s with team := fun q => if q = p then none else s.team q }

/-- The histories (parallel_openmp.cpp:22-97). -/
inductive Run (hw : Nat) (odd : Int → Nat) : St → List Act → St → Prop where
  | nil (s : St) : Run hw odd s [] s
  | snoc (s s' s'' : St) (as : List Act) (a : Act) (h : Run hw odd s as s') (hs : Step hw odd s' a s'') : Run hw odd s (as ++ [a]) s''

end LM.Threads
