/-
  Polling of values: src/debug.cpp:16-35, src/pylm.cpp:419-431.
-/
namespace LM.Poll

/-- What code that runs can do, as far as polling is concerned (debug.cpp:26-35, pylm.cpp:421-430). Functions have numbers. Simplified: functions do not throw, and everything happens in one thread. -/
inductive Act (V : Type)
  /-- debug::poll (debug.cpp:26-31), also from Python (pylm.cpp:421). -/
  | poll (v : V)
  /-- debug::reg_on_poll from C++ (debug.cpp:33-35); `none` is an empty std::function. -/
  | reg (f : Option Nat)
  /-- debug.reg_on_poll from Python (pylm.cpp:422-431); `none` is None, which is converted to an empty std::function. -/
  | regPy (f : Option Nat)
  /-- The running function reads something it has captured (debug.cpp:29, pylm.cpp:427-428: `func`). -/
  | use
  /-- lm::init, lm::shutdown or lm::reset (user.cpp:54-72, 99-127); these leave the context of debug.cpp as it is. -/
  | user

/-- A copy of a function in Context::on_poll (debug.cpp:17, 34): the function, whether it is wrapped (pylm.cpp:425-430), and a number that no other copy has. -/
structure Copy where
  fn : Option Nat
  py : Bool
  inst : Nat

/-- The process: Context::on_poll, a static object (debug.cpp:16-22), and, to state properties, the functions called so far with their arguments and what has been done so far (other than `use`). -/
structure St (V : Type) where
  slot : Option Copy
  next : Nat
  log : List (Nat × V)
  trace : List (Act V)

/-- At the start of the process (debug.cpp:16-22). -/
def init (V : Type) : St V := ⟨none, 0, [], []⟩

/-- How code ends: it ends, it has undefined behaviour, or it has not ended after the given number of steps (debug.cpp:26-35). -/
inductive Out (V : Type)
  | done (s : St V)
  | undef
  | running

variable {V : Type}

/-- `Context::instance().on_poll = func`, debug.cpp:34: the copy that was there is destroyed. -/
def St.put (s : St V) (c : Nat → Option Copy) (a : Act V) : St V := ⟨c s.next, s.next + 1, s.log, s.trace ++ [a]⟩

/-- What a call of a copy does: the wrapper reads the captured function, twice (pylm.cpp:425-430). -/
def code (body : Nat → V → List (Act V)) (c : Copy) (v : V) : List (Act V) :=
  match c.fn with
  | none => [.use]
  | some f => if c.py then .use :: .use :: body f v else body f v

/-- What is recorded of a call: the function of the user (debug.cpp:29, pylm.cpp:427-428). -/
def called (c : Copy) (v : V) : List (Nat × V) :=
  match c.fn with
  | none => []
  | some f => [(f, v)]

/-- Runs code, at most `k` steps deep. `fr` is the copy whose code it is, `none` for code outside of functions that are polled. poll refers to the function in the context, it does not copy it (debug.cpp:27), so a running function whose copy has been replaced has been destroyed:
    reading what it has captured is undefined (debug.cpp:26-35). -/
def exec (body : Nat → V → List (Act V)) : Nat → Option Nat → List (Act V) → St V → Out V
  | 0, _, _, _ => .running
  | _ + 1, _, [], s => .done s
  | k + 1, fr, .reg f :: as, s => exec body k fr as (s.put (fun n => f.map fun f => ⟨some f, false, n⟩) (.reg f))
  | k + 1, fr, .regPy f :: as, s => exec body k fr as (s.put (fun n => some ⟨f, true, n⟩) (.regPy f))
  | k + 1, fr, .user :: as, s => exec body k fr as { s with trace := s.trace ++ [.user] }
  | k + 1, none, .use :: as, s => exec body k none as s
  | k + 1, some j, .use :: as, s => if s.slot.map (·.inst) = some j then exec body k (some j) as s else .undef
  | k + 1, fr, .poll v :: as, s =>
    match s.slot with
    | none => exec body k fr as { s with trace := s.trace ++ [.poll v] }
    | some c =>
      match exec body k (some c.inst) (code body c v) { s with log := s.log ++ called c v, trace := s.trace ++ [.poll v] } with
      | .done s' => exec body k fr as s'
      | o => o

end LM.Poll
