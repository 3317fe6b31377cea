import Mathlib.Logic.Function.Basic
/-
  Floating-point exceptions: src/exception.cpp, include/lm/exception.h, on Windows (elsewhere the functions do nothing, `windows = false`).
  The control word belongs to the thread. A program is what a thread executes: operations that raise a floating-point exception, calls of the API, blocks with a guard object, try blocks.
  Stack traces, denormals and the description of structured exceptions are not modelled.
-/
namespace LM.Fpex

/-- The floating-point exceptions of the mask _MCW_EM, exception.cpp:33-45. -/
inductive Exc
  | invalid | zeroDivide | overflow | underflow | inexact | denormal
deriving DecidableEq, Repr

/-- The exception mask in the control word: true means masked, the operation yields a value (exception.cpp:33-45). -/
abbrev Mask := Exc → Bool

/-- `~(_EM_INVALID | _EM_ZERODIVIDE)` under _MCW_EM, exception.cpp:107-111. -/
def enabledMask : Mask := fun e => !(e == .invalid || e == .zeroDivide)

/-- `_CW_DEFAULT` under _MCW_EM: everything masked (exception.cpp:113-117). It is also the mask of a new thread. -/
def defaultMask : Mask := fun _ => true

/-- set_fpex_state: the new mask (exception.cpp:34-45); the returned old one is used by nobody. -/
def setState (windows : Bool) (state cur : Mask) : Mask := if windows then state else cur

/-- enable_fpex, exception.cpp:107-111. -/
def enable (windows : Bool) (cur : Mask) : Mask := setState windows enabledMask cur

/-- disable_fpex, exception.cpp:113-117. -/
def disable (windows : Bool) (cur : Mask) : Mask := setState windows defaultMask cur

/-- What a thread executes. `guarded` is a block with a ScopedDisableFPEx object (exception.h:101-106), `attempt` a block whose exceptions are caught.
    Users of guards in the library: accel_sahbvh.cpp:270 (every ray query), film_bitmap.cpp:158 (saving), objloader_tinyobjloader.cpp:28. -/
inductive Code
  | op (name : Nat) (e : Exc)
  | throw
  | enable
  | disable
  | guarded (body : List Code)
  | attempt (body : List Code)

/-- An operation was executed and raised its exception: `trapped`, or yielded a value (exception.cpp:94-95). -/
structure Event where
  name : Nat
  trapped : Bool
deriving DecidableEq, Repr

/-- The state of the thread after some code, what happened, and whether it ended by an exception (exception.h:101-106). -/
structure Res (σ : Type) where
  st : σ
  evs : List Event
  thrown : Bool

/-- One statement, and a sequence of statements. The destructor of the guard runs also when the block ends by an exception (exception.h:103-104).
    A trap is turned into a C++ exception (exception.cpp:54-89). -/
def exec (windows : Bool) : Code → Mask → Res Mask
  | .op n e, m => if m e then ⟨m, [⟨n, false⟩], false⟩ else ⟨m, [⟨n, true⟩], true⟩
  | .throw, m => ⟨m, [], true⟩
  | .enable, m => ⟨enable windows m, [], false⟩
  | .disable, m => ⟨disable windows m, [], false⟩
  | .guarded body, m =>
    let r := execs body (disable windows m)
    ⟨enable windows r.st, r.evs, r.thrown⟩
  | .attempt body, m => { execs body m with thrown := false }
where
  /-- A sequence of statements (exception.h:101-106). -/
  execs : List Code → Mask → Res Mask
    | [], m => ⟨m, [], false⟩
    | c :: cs, m =>
      let r := exec windows c m
      if r.thrown then r else
      let r' := execs cs r.st
      ⟨r'.st, r.evs ++ r'.evs, r'.thrown⟩

/-- The threads of the process, each with its mask. New threads start with the default one (exception.cpp:49-105). -/
abbrev Proc := Nat → Mask

/-- What happens to a process: init and shutdown of the framework on a thread (exception.cpp:49-105, user.cpp:48-71), or a thread executes code. -/
inductive Act
  | init (thread : Nat)
  | shutdown (thread : Nat)
  | run (thread : Nat) (code : List Code)

/-- One action (exception.cpp:49-105): init enables, shutdown disables, both on the calling thread. -/
def step (windows : Bool) (p : Proc) : Act → Proc × List Event
  | .init t => (Function.update p t (enable windows (p t)), [])
  | .shutdown t => (Function.update p t (disable windows (p t)), [])
  | .run t code => (Function.update p t (exec.execs windows code (p t)).st, (exec.execs windows code (p t)).evs)

/-- A history of actions, oldest first (exception.cpp:49-105); a process starts with default masks. -/
def runs (windows : Bool) : Proc → List Act → Proc × List (List Event)
  | p, [] => (p, [])
  | p, a :: as => ((runs windows (step windows p a).1 as).1, (step windows p a).2 :: (runs windows (step windows p a).1 as).2)

/-- The process before the first action (exception.cpp:49-105). -/
def Proc.start : Proc := fun _ => defaultMask

end LM.Fpex
