import Verif.Model.PyParallel
import Verif.Props.C17_Parallel
import Mathlib.Algebra.BigOperators.Intervals
/-
  C103: Python functions called from the threads of a parallel loop.
-/
namespace LM.PyParallel
open LM.Parallel

/-- The thread runs Python code. -/
def inPython : Sub → Bool
  | .py _ _ | .repPy | .lockedPy | .leavePy => true
  | _ => false

/-- The thread has the mutex of the handler. -/
def inLock : Sub → Bool
  | .locked | .lockedWait | .lockedPy => true
  | _ => false

/-- The refinement of a step fits the step. -/
def Fits : TS → Sub → Bool
  | .idle, .plain | .idle, .leaving | .idle, .leaveWait | .idle, .leavePy => true
  | .got _, .plain | .ran, .plain | .fin, .plain => true
  | .running _, .native _ | .running _, .wait _ | .running _, .rewait _ _ | .running _, .py _ _ => true
  | .report, .plain | .report, .repWait | .report, .repPy => true
  | .caught _, .plain | .caught _, .locked | .caught _, .lockedWait | .caught _, .lockedPy => true
  | _, _ => false

structure GInv (c : GCfg) (s : GSys) : Prop where
  fits : ∀ t, Fits (s.base.st t) (s.sub t) = true
  gil : s.phase = .loop → ∀ t, inPython (s.sub t) = true ↔ s.gil = .thread t
  lock : ∀ t, inLock (s.sub t) = true ↔ s.explock = some t
  lockLt : ∀ t, s.explock = some t → t < c.threads
  outside : s.phase ≠ .loop → ∀ t, inPython (s.sub t) = false
  calling : s.phase = .calling → s.gil = .thread 0
  loop : s.phase = .loop → ∀ t, s.gil = .thread t → t < c.threads
  finished : s.phase = .finished → ∀ t, s.gil ≠ .thread t
  returned : s.phase = .returned → s.gil = .thread 0
  done : s.phase = .finished ∨ s.phase = .returned → Done c.toCfg s.base

theorem ginv_init (c : GCfg) (count : Nat → Nat) : GInv c (ginit count) := by
  constructor <;> simp [ginit, init, Fits, inPython, inLock]

theorem upd_ne' {α : Type} (f : Nat → α) {t u : Nat} (x : α) (h : u ≠ t) : upd f t x u = f u := by simp [upd, h]
theorem upd_eq' {α : Type} (f : Nat → α) (t : Nat) (x : α) : upd f t x t = x := by simp [upd]

theorem step_other (c : Cfg) (s : Sys) {t u : Nat} (h : u ≠ t) : (step c s t).st u = s.st u := by
  unfold step
  split
  · split <;> simp [upd, h]
  · split <;> simp [upd, h]
  · split <;> simp [upd, h]
  · dsimp only; split <;> simp [upd, h]
  · simp [upd, h]
  · simp [upd, h]
  · rfl

/-- How a step of the thread t treats the GIL: not at all, takes it, releases it. -/
def GilStep (s s' : GSys) (t : Nat) : Prop :=
  (s'.gil = s.gil ∧ inPython (s'.sub t) = inPython (s.sub t)) ∨
  (s.gil = .free ∧ s'.gil = .thread t ∧ inPython (s'.sub t) = true) ∨
  (s'.gil = .free ∧ inPython (s.sub t) = true ∧ inPython (s'.sub t) = false)

/-- How a step of the thread t treats the mutex. -/
def LockStep (s s' : GSys) (t : Nat) : Prop :=
  (s'.explock = s.explock ∧ inLock (s'.sub t) = inLock (s.sub t)) ∨
  (s.explock = none ∧ s'.explock = some t ∧ inLock (s'.sub t) = true) ∨
  (s'.explock = none ∧ inLock (s.sub t) = true ∧ inLock (s'.sub t) = false)

structure Local (s s' : GSys) (t : Nat) : Prop where
  phase : s'.phase = s.phase
  st : ∀ u, u ≠ t → s'.base.st u = s.base.st u
  sub : ∀ u, u ≠ t → s'.sub u = s.sub u
  fits : Fits (s'.base.st t) (s'.sub t) = true
  gil : GilStep s s' t
  lock : LockStep s s' t

theorem ginv_of_local {c : GCfg} {s s' : GSys} {t : Nat} (h : GInv c s) (hph : s.phase = .loop) (ht : t < c.threads) (l : Local s s' t) : GInv c s' := by
  have hp' : s'.phase = .loop := l.phase.trans hph
  refine ⟨fun u => ?_, fun _ u => ?_, fun u => ?_, fun u hu => ?_, fun hn => absurd hp' hn, fun hn => ?_, fun _ u hu => ?_, fun hn => ?_, fun hn => ?_, fun hn => ?_⟩
  · by_cases hu : u = t
    · rw [hu]; exact l.fits
    · rw [l.st u hu, l.sub u hu]; exact h.fits u
  · have hg := h.gil hph
    rcases l.gil with ⟨h1, h2⟩ | ⟨h1, h2, h3⟩ | ⟨h1, h2, h3⟩
    · by_cases hu : u = t
      · rw [hu, h1, h2]; exact hg t
      · rw [l.sub u hu, h1]; exact hg u
    · by_cases hu : u = t
      · rw [hu, h2, h3]; simp
      · rw [l.sub u hu, h2, hg u, h1]
        simp [Ne.symm hu]
    · by_cases hu : u = t
      · rw [hu, h1, h3]; simp
      · rw [l.sub u hu, h1, hg u, (hg t).mp h2]
        simp [Ne.symm hu]
  · have hg := h.lock
    rcases l.lock with ⟨h1, h2⟩ | ⟨h1, h2, h3⟩ | ⟨h1, h2, h3⟩
    · by_cases hu : u = t
      · rw [hu, h1, h2]; exact hg t
      · rw [l.sub u hu, h1]; exact hg u
    · by_cases hu : u = t
      · rw [hu, h2, h3]; simp
      · rw [l.sub u hu, h2, hg u, h1]
        simp [Ne.symm hu]
    · by_cases hu : u = t
      · rw [hu, h1, h3]; simp
      · rw [l.sub u hu, h1, hg u, (hg t).mp h2]
        simp [Ne.symm hu]
  · rcases l.lock with ⟨h1, _⟩ | ⟨_, h2, _⟩ | ⟨h1, _, _⟩
    · exact h.lockLt u (h1 ▸ hu)
    · rw [h2] at hu; cases hu; exact ht
    · rw [h1] at hu; cases hu
  · rw [hp'] at hn; cases hn
  · rcases l.gil with ⟨h1, _⟩ | ⟨_, h2, _⟩ | ⟨h1, _, _⟩
    · exact h.loop hph u (h1 ▸ hu)
    · rw [h2] at hu; cases hu; exact ht
    · rw [h1] at hu; cases hu
  · rw [hp'] at hn; cases hn
  · rw [hp'] at hn; cases hn
  · rw [hp'] at hn; rcases hn with hn | hn <;> cases hn

theorem step_idle (c : Cfg) (s : Sys) (t : Nat) (h : s.st t = .idle) : (step c s t).st t = .got s.next ∨ (step c s t).st t = .fin := by
  unfold step; rw [h]; dsimp only; split <;> simp [upd]
theorem step_got (c : Cfg) (s : Sys) (t i : Nat) (h : s.st t = .got i) : (step c s t).st t = if s.done then .idle else .running i := by
  unfold step; rw [h]; dsimp only; split <;> simp [upd]
theorem step_running (c : Cfg) (s : Sys) (t i : Nat) (h : s.st t = .running i) : (step c s t).st t = if c.throws i then .caught i else .ran := by
  unfold step; rw [h]; dsimp only; split <;> simp [upd]
theorem step_ran (c : Cfg) (s : Sys) (t : Nat) (h : s.st t = .ran) : (step c s t).st t = if t = 0 then .report else .idle := by
  unfold step; rw [h]; dsimp only; split <;> simp [upd]
theorem step_report (c : Cfg) (s : Sys) (t : Nat) (h : s.st t = .report) : (step c s t).st t = .idle := by
  unfold step; rw [h]; simp [upd]
theorem step_caught (c : Cfg) (s : Sys) (t i : Nat) (h : s.st t = .caught i) : (step c s t).st t = .idle := by
  unfold step; rw [h]; simp [upd]

/-- The steps of a thread, one by one. -/
inductive TStep (c : GCfg) (s : GSys) (t : Nat) : GSys → Prop
  | leave (x : Sub) (hst : s.base.st t = .idle) (hsub : s.sub t = .leaving) (hx : x = .leaveWait ∨ x = .plain) : TStep c s t { s with sub := upd s.sub t x }
  | leaveTake (hst : s.base.st t = .idle) (hsub : s.sub t = .leaveWait) (hg : s.gil = .free) : TStep c s t { s with gil := .thread t, sub := upd s.sub t .leavePy }
  | leaveRelease (hst : s.base.st t = .idle) (hsub : s.sub t = .leavePy) : TStep c s t { s with gil := .free, sub := upd s.sub t .plain }
  | idle (hst : s.base.st t = .idle) (hsub : s.sub t = .plain) : TStep c s t { s with base := step c.toCfg s.base t }
  | skip (i : Nat) (hst : s.base.st t = .got i) (hsub : s.sub t = .plain) (hd : s.base.done = true) : TStep c s t { s with base := step c.toCfg s.base t }
  | begin (i : Nat) (hst : s.base.st t = .got i) (hsub : s.sub t = .plain) (hd : s.base.done = false) :
      TStep c s t { s with base := step c.toCfg s.base t, sub := upd s.sub t (.native (c.sections i)) }
  | enter (i k : Nat) (hst : s.base.st t = .running i) (hsub : s.sub t = .native (k + 1)) : TStep c s t { s with sub := upd s.sub t (.wait k) }
  | take (i k : Nat) (hst : s.base.st t = .running i) (hsub : s.sub t = .wait k) (hg : s.gil = .free) :
      TStep c s t { s with gil := .thread t, sub := upd s.sub t (.py k (c.units i k)), pyCalls := s.pyCalls ++ [i] }
  | yield (i k w : Nat) (hst : s.base.st t = .running i) (hsub : s.sub t = .py k (w + 1)) : TStep c s t { s with gil := .free, sub := upd s.sub t (.rewait k w) }
  | unit (i k w : Nat) (hst : s.base.st t = .running i) (hsub : s.sub t = .py k (w + 1)) : TStep c s t { s with sub := upd s.sub t (.py k w) }
  | retake (i k w : Nat) (hst : s.base.st t = .running i) (hsub : s.sub t = .rewait k w) (hg : s.gil = .free) : TStep c s t { s with gil := .thread t, sub := upd s.sub t (.py k w) }
  | exit (i k : Nat) (hst : s.base.st t = .running i) (hsub : s.sub t = .py k 0) : TStep c s t { s with gil := .free, sub := upd s.sub t (.native k) }
  | return_ (i : Nat) (hst : s.base.st t = .running i) (hsub : s.sub t = .native 0) : TStep c s t { s with base := step c.toCfg s.base t, sub := upd s.sub t .plain }
  | ran (hst : s.base.st t = .ran) (hsub : s.sub t = .plain) : TStep c s t { s with base := step c.toCfg s.base t }
  | report (hst : s.base.st t = .report) (hsub : s.sub t = .plain) : TStep c s t { s with base := step c.toCfg s.base t }
  | repEnter (hst : s.base.st t = .report) (hsub : s.sub t = .plain) : TStep c s t { s with sub := upd s.sub t .repWait }
  | repTake (hst : s.base.st t = .report) (hsub : s.sub t = .repWait) (hg : s.gil = .free) : TStep c s t { s with gil := .thread t, sub := upd s.sub t .repPy }
  | repExit (hst : s.base.st t = .report) (hsub : s.sub t = .repPy) : TStep c s t { s with gil := .free, base := step c.toCfg s.base t, sub := upd s.sub t .plain }
  | lock (i : Nat) (hst : s.base.st t = .caught i) (hsub : s.sub t = .plain) (hl : s.explock = none) : TStep c s t { s with explock := some t, sub := upd s.sub t .locked }
  | replace (i : Nat) (hst : s.base.st t = .caught i) (hsub : s.sub t = .locked) : TStep c s t { s with sub := upd s.sub t .lockedWait }
  | store (i : Nat) (hst : s.base.st t = .caught i) (hsub : s.sub t = .locked) : TStep c s t { s with base := step c.toCfg s.base t, explock := none, sub := upd s.sub t .leaving }
  | lockTake (i : Nat) (hst : s.base.st t = .caught i) (hsub : s.sub t = .lockedWait) (hg : s.gil = .free) : TStep c s t { s with gil := .thread t, sub := upd s.sub t .lockedPy }
  | lockStore (i : Nat) (hst : s.base.st t = .caught i) (hsub : s.sub t = .lockedPy) :
      TStep c s t { s with gil := .free, base := step c.toCfg s.base t, explock := none, sub := upd s.sub t .leaving }

theorem tstep_of {c : GCfg} {s s' : GSys} {t : Nat} {b : Bool} (hf : Fits (s.base.st t) (s.sub t) = true) (hs : threadStep c s t b = some s') : TStep c s t s' := by
  cases hst : s.base.st t with
  | idle =>
    cases hsub : s.sub t <;> simp only [hst, hsub, Fits] at hf <;> first | (exact absurd hf (by decide)) | skip
    all_goals simp only [threadStep, hst, hsub] at hs
    · exact Option.some.inj hs ▸ .idle hst hsub
    · exact Option.some.inj hs ▸ .leave _ hst hsub (by cases b <;> simp)
    · split at hs
      · exact Option.some.inj hs ▸ .leaveTake hst hsub ‹_›
      · cases hs
    · exact Option.some.inj hs ▸ .leaveRelease hst hsub
  | got i =>
    cases hsub : s.sub t <;> simp only [hst, hsub, Fits] at hf <;> first | (exact absurd hf (by decide)) | skip
    simp only [threadStep, hst, hsub] at hs
    split at hs
    · exact Option.some.inj hs ▸ .skip i hst hsub ‹_›
    · rename_i hd
      exact Option.some.inj hs ▸ .begin i hst hsub ((Bool.not_eq_true _).mp hd)
  | running i =>
    cases hsub : s.sub t with
    | native k =>
      cases k with
      | zero => simp only [threadStep, hst, hsub] at hs; exact Option.some.inj hs ▸ .return_ i hst hsub
      | succ k => simp only [threadStep, hst, hsub] at hs; exact Option.some.inj hs ▸ .enter i k hst hsub
    | wait k =>
      simp only [threadStep, hst, hsub] at hs
      split at hs
      · exact Option.some.inj hs ▸ .take i k hst hsub ‹_›
      · cases hs
    | rewait k w =>
      simp only [threadStep, hst, hsub] at hs
      split at hs
      · exact Option.some.inj hs ▸ .retake i k w hst hsub ‹_›
      · cases hs
    | py k w =>
      cases w with
      | zero => simp only [threadStep, hst, hsub] at hs; exact Option.some.inj hs ▸ .exit i k hst hsub
      | succ w =>
        simp only [threadStep, hst, hsub] at hs
        split at hs
        · exact Option.some.inj hs ▸ .yield i k w hst hsub
        · exact Option.some.inj hs ▸ .unit i k w hst hsub
    | _ => simp only [hst, hsub, Fits] at hf; exact absurd hf (by decide)
  | ran =>
    cases hsub : s.sub t <;> simp only [hst, hsub, Fits] at hf <;> first | (exact absurd hf (by decide)) | skip
    simp only [threadStep, hst] at hs
    exact Option.some.inj hs ▸ .ran hst hsub
  | report =>
    cases hsub : s.sub t <;> simp only [hst, hsub, Fits] at hf <;> first | (exact absurd hf (by decide)) | skip
    all_goals simp only [threadStep, hst, hsub] at hs
    · split at hs
      · exact Option.some.inj hs ▸ .repEnter hst hsub
      · exact Option.some.inj hs ▸ .report hst hsub
    · split at hs
      · exact Option.some.inj hs ▸ .repTake hst hsub ‹_›
      · cases hs
    · exact Option.some.inj hs ▸ .repExit hst hsub
  | caught i =>
    cases hsub : s.sub t <;> simp only [hst, hsub, Fits] at hf <;> first | (exact absurd hf (by decide)) | skip
    all_goals simp only [threadStep, hst, hsub] at hs
    · split at hs
      · exact Option.some.inj hs ▸ .lock i hst hsub ‹_›
      · cases hs
    · split at hs
      · exact Option.some.inj hs ▸ .replace i hst hsub
      · exact Option.some.inj hs ▸ .store i hst hsub
    · split at hs
      · exact Option.some.inj hs ▸ .lockTake i hst hsub ‹_›
      · cases hs
    · exact Option.some.inj hs ▸ .lockStore i hst hsub
  | fin => simp only [threadStep, hst] at hs; cases hs

theorem local_of {c : GCfg} {s s' : GSys} {t : Nat} (h : TStep c s t s') : Local s s' t := by
  have so := fun u (hu : u ≠ t) => step_other c.toCfg s.base hu
  have su := fun x u (hu : u ≠ t) => upd_ne' s.sub x hu
  have se := fun x => upd_eq' s.sub t x
  cases h with
  | leave x hst hsub hx => exact ⟨rfl, fun _ _ => rfl, su _, by rcases hx with rfl | rfl <;> simp [se, hst, Fits], .inl ⟨rfl, by rcases hx with rfl | rfl <;> simp [se, hsub, inPython]⟩, .inl ⟨rfl, by rcases hx with rfl | rfl <;> simp [se, hsub, inLock]⟩⟩
  | leaveTake hst hsub hg => exact ⟨rfl, fun _ _ => rfl, su _, by simp [se, hst, Fits], .inr (.inl ⟨hg, rfl, by simp [se, inPython]⟩), .inl ⟨rfl, by simp [se, hsub, inLock]⟩⟩
  | leaveRelease hst hsub => exact ⟨rfl, fun _ _ => rfl, su _, by simp [se, hst, Fits], .inr (.inr ⟨rfl, by simp [hsub, inPython], by simp [se, inPython]⟩), .inl ⟨rfl, by simp [se, hsub, inLock]⟩⟩
  | idle hst hsub => exact ⟨rfl, so, fun _ _ => rfl, by rcases step_idle c.toCfg s.base t hst with h | h <;> simp [h, hsub, Fits], .inl ⟨rfl, rfl⟩, .inl ⟨rfl, rfl⟩⟩
  | skip i hst hsub hd => exact ⟨rfl, so, fun _ _ => rfl, by simp [step_got c.toCfg s.base t i hst, hd, hsub, Fits], .inl ⟨rfl, rfl⟩, .inl ⟨rfl, rfl⟩⟩
  | begin i hst hsub hd => exact ⟨rfl, so, su _, by simp [step_got c.toCfg s.base t i hst, hd, se, Fits], .inl ⟨rfl, by simp [se, hsub, inPython]⟩, .inl ⟨rfl, by simp [se, hsub, inLock]⟩⟩
  | enter i k hst hsub => exact ⟨rfl, fun _ _ => rfl, su _, by simp [se, hst, Fits], .inl ⟨rfl, by simp [se, hsub, inPython]⟩, .inl ⟨rfl, by simp [se, hsub, inLock]⟩⟩
  | take i k hst hsub hg => exact ⟨rfl, fun _ _ => rfl, su _, by simp [se, hst, Fits], .inr (.inl ⟨hg, rfl, by simp [se, inPython]⟩), .inl ⟨rfl, by simp [se, hsub, inLock]⟩⟩
  | yield i k w hst hsub => exact ⟨rfl, fun _ _ => rfl, su _, by simp [se, hst, Fits], .inr (.inr ⟨rfl, by simp [hsub, inPython], by simp [se, inPython]⟩), .inl ⟨rfl, by simp [se, hsub, inLock]⟩⟩
  | unit i k w hst hsub => exact ⟨rfl, fun _ _ => rfl, su _, by simp [se, hst, Fits], .inl ⟨rfl, by simp [se, hsub, inPython]⟩, .inl ⟨rfl, by simp [se, hsub, inLock]⟩⟩
  | retake i k w hst hsub hg => exact ⟨rfl, fun _ _ => rfl, su _, by simp [se, hst, Fits], .inr (.inl ⟨hg, rfl, by simp [se, inPython]⟩), .inl ⟨rfl, by simp [se, hsub, inLock]⟩⟩
  | exit i k hst hsub => exact ⟨rfl, fun _ _ => rfl, su _, by simp [se, hst, Fits], .inr (.inr ⟨rfl, by simp [hsub, inPython], by simp [se, inPython]⟩), .inl ⟨rfl, by simp [se, hsub, inLock]⟩⟩
  | return_ i hst hsub => exact ⟨rfl, so, su _, by cases hc : c.throws i <;> simp [step_running c.toCfg s.base t i hst, se, hc, Fits], .inl ⟨rfl, by simp [se, hsub, inPython]⟩, .inl ⟨rfl, by simp [se, hsub, inLock]⟩⟩
  | ran hst hsub => exact ⟨rfl, so, fun _ _ => rfl, by show Fits ((step c.toCfg s.base t).st t) (s.sub t) = true; rw [step_ran _ _ _ hst, hsub]; split <;> rfl, .inl ⟨rfl, rfl⟩, .inl ⟨rfl, rfl⟩⟩
  | report hst hsub => exact ⟨rfl, so, fun _ _ => rfl, by simp [step_report c.toCfg s.base t hst, hsub, Fits], .inl ⟨rfl, rfl⟩, .inl ⟨rfl, rfl⟩⟩
  | repEnter hst hsub => exact ⟨rfl, fun _ _ => rfl, su _, by simp [se, hst, Fits], .inl ⟨rfl, by simp [se, hsub, inPython]⟩, .inl ⟨rfl, by simp [se, hsub, inLock]⟩⟩
  | repTake hst hsub hg => exact ⟨rfl, fun _ _ => rfl, su _, by simp [se, hst, Fits], .inr (.inl ⟨hg, rfl, by simp [se, inPython]⟩), .inl ⟨rfl, by simp [se, hsub, inLock]⟩⟩
  | repExit hst hsub => exact ⟨rfl, so, su _, by simp [step_report c.toCfg s.base t hst, se, Fits], .inr (.inr ⟨rfl, by simp [hsub, inPython], by simp [se, inPython]⟩), .inl ⟨rfl, by simp [se, hsub, inLock]⟩⟩
  | lock i hst hsub hl => exact ⟨rfl, fun _ _ => rfl, su _, by simp [se, hst, Fits], .inl ⟨rfl, by simp [se, hsub, inPython]⟩, .inr (.inl ⟨hl, rfl, by simp [se, inLock]⟩)⟩
  | replace i hst hsub => exact ⟨rfl, fun _ _ => rfl, su _, by simp [se, hst, Fits], .inl ⟨rfl, by simp [se, hsub, inPython]⟩, .inl ⟨rfl, by simp [se, hsub, inLock]⟩⟩
  | store i hst hsub => exact ⟨rfl, so, su _, by simp [step_caught c.toCfg s.base t i hst, se, Fits], .inl ⟨rfl, by simp [se, hsub, inPython]⟩, .inr (.inr ⟨rfl, by simp [hsub, inLock], by simp [se, inLock]⟩)⟩
  | lockTake i hst hsub hg => exact ⟨rfl, fun _ _ => rfl, su _, by simp [se, hst, Fits], .inr (.inl ⟨hg, rfl, by simp [se, inPython]⟩), .inl ⟨rfl, by simp [se, hsub, inLock]⟩⟩
  | lockStore i hst hsub => exact ⟨rfl, so, su _, by simp [step_caught c.toCfg s.base t i hst, se, Fits], .inr (.inr ⟨rfl, by simp [hsub, inPython], by simp [se, inPython]⟩), .inr (.inr ⟨rfl, by simp [hsub, inLock], by simp [se, inLock]⟩)⟩

theorem ginv_step {c : GCfg} {s s' : GSys} (h : GInv c s) (a : Act) (hs : gstep c s a = some s') : GInv c s' := by
  cases a with
  | thread t b =>
    simp only [gstep] at hs
    split at hs
    · rename_i hc
      exact ginv_of_local h hc.1 hc.2 (local_of (tstep_of (h.fits t) hs))
    · cases hs
  | main =>
    simp only [gstep] at hs
    split at hs
    · rename_i hp
      have ho := h.outside (by rw [hp]; decide)
      obtain rfl := Option.some.inj hs
      refine ⟨h.fits, fun _ u => by simp [ho u], h.lock, h.lockLt, fun hn => absurd rfl hn, fun hn => ?_, fun _ u hu => ?_, fun hn => ?_, fun hn => ?_, fun hn => ?_⟩
      all_goals first | (cases hn; done) | (cases hu; done) | (rcases hn with hn | hn <;> cases hn)
    · rename_i hp
      split at hs
      · rename_i hd
        obtain rfl := Option.some.inj hs
        have hg : ∀ t, inPython (s.sub t) = false := fun t => by
          by_contra hc
          rw [Bool.not_eq_false] at hc
          have ht := h.loop hp t ((h.gil hp t).mp hc)
          have hf := h.fits t
          rw [hd t ht] at hf
          cases hsub : s.sub t <;> rw [hsub] at hf hc <;> first | exact absurd hc Bool.false_ne_true | exact absurd hf Bool.false_ne_true
        refine ⟨h.fits, fun hn => ?_, h.lock, h.lockLt, fun _ => hg, fun hn => ?_, fun hn => ?_, fun _ u hu => ?_, fun hn => ?_, fun _ => hd⟩
        · cases hn
        · cases hn
        · cases hn
        · have := (h.gil hp u).mpr hu
          rw [hg u] at this; cases this
        · cases hn
      · cases hs
    · rename_i hp
      split at hs
      · obtain rfl := Option.some.inj hs
        refine ⟨h.fits, fun hn => ?_, h.lock, h.lockLt, fun _ => h.outside (by rw [hp]; decide), fun hn => ?_, fun hn => ?_, fun hn => ?_, fun _ => rfl, fun _ => h.done (.inl hp)⟩
        all_goals cases hn
      · cases hs
    · cases hs
  | other =>
    simp only [gstep] at hs
    split at hs
    · rename_i hg
      obtain rfl := Option.some.inj hs
      refine ⟨h.fits, fun hp u => ?_, h.lock, h.lockLt, h.outside, fun hp => ?_, fun _ u hu => ?_, fun _ u => ?_, fun hp => ?_, h.done⟩
      · have := h.gil hp u; rw [hg] at this; simpa using this
      · have := h.calling hp; rw [hg] at this; cases this
      · cases hu
      · intro hc; cases hc
      · have := h.returned hp; rw [hg] at this; cases this
    · rename_i hg
      obtain rfl := Option.some.inj hs
      refine ⟨h.fits, fun hp u => ?_, h.lock, h.lockLt, h.outside, fun hp => ?_, fun _ u hu => ?_, fun _ u => ?_, fun hp => ?_, h.done⟩
      · have := h.gil hp u; rw [hg] at this; simpa using this
      · have := h.calling hp; rw [hg] at this; cases this
      · cases hu
      · intro hc; cases hc
      · have := h.returned hp; rw [hg] at this; cases this
    · cases hs

theorem grun_cons (c : GCfg) (s : GSys) (a : Act) (as : List Act) : grun c s (a :: as) = grun c (match gstep c s a with | some s' => s' | none => s) as := rfl

theorem ginv_run {c : GCfg} (as : List Act) : ∀ {s : GSys}, GInv c s → GInv c (grun c s as) := by
  induction as with
  | nil => exact fun h => h
  | cons a as ih =>
    intro s h
    rw [grun_cons]
    cases hs : gstep c s a with
    | none => exact ih h
    | some s' => exact ih (ginv_step h a hs)

/-! ### The loop is the loop of C17 -/

theorem tstep_base {c : GCfg} {s s' : GSys} {t : Nat} (h : TStep c s t s') : s'.base = s.base ∨ s'.base = step c.toCfg s.base t := by
  cases h
  all_goals first | exact Or.inl rfl | exact Or.inr rfl

theorem grun_base {c : GCfg} (count : Nat → Nat) (as : List Act) : ∀ {s : GSys}, GInv c s → (∃ sched, (∀ t ∈ sched, t < c.threads) ∧ s.base = run c.toCfg (init count) sched) →
    ∃ sched, (∀ t ∈ sched, t < c.threads) ∧ (grun c s as).base = run c.toCfg (init count) sched := by
  induction as with
  | nil => exact fun _ h => h
  | cons a as ih =>
    intro s hi h
    rw [grun_cons]
    cases hs : gstep c s a with
    | none => exact ih hi h
    | some s' =>
      refine ih (ginv_step hi a hs) ?_
      obtain ⟨sched, h1, h2⟩ := h
      cases a with
      | thread t b =>
        simp only [gstep] at hs
        split at hs
        · rename_i hc
          rcases tstep_base (tstep_of (hi.fits t) hs) with hb | hb
          · exact ⟨sched, h1, hb.trans h2⟩
          · refine ⟨sched ++ [t], fun u hu => ?_, ?_⟩
            · rcases List.mem_append.mp hu with hu | hu
              · exact h1 u hu
              · rw [List.mem_singleton.mp hu]; exact hc.2
            · rw [hb, h2]; unfold run; rw [List.foldl_append]; rfl
        · cases hs
      | main =>
        refine ⟨sched, h1, ?_⟩
        simp only [gstep] at hs
        repeat' split at hs
        all_goals first | (cases hs; done) | (obtain rfl := Option.some.inj hs; exact h2)
      | other =>
        refine ⟨sched, h1, ?_⟩
        simp only [gstep] at hs
        repeat' split at hs
        all_goals first | (cases hs; done) | (obtain rfl := Option.some.inj hs; exact h2)

theorem grun_init (c : GCfg) (count : Nat → Nat) (as : List Act) : ∃ sched, (∀ t ∈ sched, t < c.threads) ∧ (grun c (ginit count) as).base = run c.toCfg (init count) sched :=
  grun_base count as (ginv_init c count) ⟨[], fun _ h => absurd h List.not_mem_nil, rfl⟩

/-! ### Sums over the threads -/

theorem sum_local {g g' : Nat → Nat} {t n : Nat} (ht : t < n) (h : ∀ u, u ≠ t → g' u = g u) : ∑ u ∈ Finset.range n, g' u + g t = ∑ u ∈ Finset.range n, g u + g' t := by
  have hm : t ∈ Finset.range n := Finset.mem_range.mpr ht
  rw [← Finset.add_sum_erase _ _ hm, ← Finset.add_sum_erase (Finset.range n) g hm]
  have : ∑ u ∈ (Finset.range n).erase t, g' u = ∑ u ∈ (Finset.range n).erase t, g u := Finset.sum_congr rfl fun u hu => h u (Finset.ne_of_mem_erase hu)
  rw [this]
  omega

/-! ### Python code entered for an index -/

/-- The Python sections that a thread has still to enter for the index i. -/
def pending (i : Nat) : TS → Sub → Nat
  | .running j, .native k => if j = i then k else 0
  | .running j, .wait k => if j = i then k + 1 else 0
  | .running j, .py k _ => if j = i then k else 0
  | .running j, .rewait k _ => if j = i then k else 0
  | _, _ => 0

/-- Entered and still to be entered is what the calls of the process function need. -/
def Balanced (c : GCfg) (s : GSys) : Prop :=
  ∀ i, s.pyCalls.count i + ∑ t ∈ Finset.range c.threads, pending i (s.base.st t) (s.sub t) = c.sections i * s.base.calls.count i

theorem step_calls (c : Cfg) (s : Sys) (t : Nat) : (step c s t).calls = s.calls ∨ ∃ i, s.st t = .got i ∧ s.done = false ∧ (step c s t).calls = s.calls ++ [i] := by
  unfold step
  split
  · split <;> exact Or.inl rfl
  · rename_i i hi
    split
    · exact Or.inl rfl
    · rename_i hd
      exact Or.inr ⟨i, hi, (Bool.not_eq_true _).mp hd, rfl⟩
  · split <;> exact Or.inl rfl
  · dsimp only; split <;> exact Or.inl rfl
  · exact Or.inl rfl
  · exact Or.inl rfl
  · exact Or.inl rfl

theorem calls_same (c : Cfg) (s : Sys) (t : Nat) (h : ∀ i, s.st t = .got i → s.done = true) : (step c s t).calls = s.calls := by
  rcases step_calls c s t with h1 | ⟨i, h1, h2, _⟩
  · exact h1
  · rw [h i h1] at h2; cases h2

theorem balanced_step {c : GCfg} {s s' : GSys} {t : Nat} (ht : t < c.threads) (hb : Balanced c s) (h : TStep c s t s') : Balanced c s' := by
  have hl := local_of h
  intro i
  have hsum := sum_local (g := fun u => pending i (s.base.st u) (s.sub u)) (g' := fun u => pending i (s'.base.st u) (s'.sub u)) ht (fun u hu => by rw [hl.st u hu, hl.sub u hu])
  have hbi := hb i
  suffices hh : s'.pyCalls.count i + pending i (s'.base.st t) (s'.sub t) + c.sections i * s.base.calls.count i =
      s.pyCalls.count i + pending i (s.base.st t) (s.sub t) + c.sections i * s'.base.calls.count i by
    omega
  have se := fun x => upd_eq' s.sub t x
  cases h with
  | begin j hst hsub hd =>
    have hc : (step c.toCfg s.base t).calls = s.base.calls ++ [j] := by
      unfold step; rw [hst]; dsimp only; rw [hd]; rfl
    dsimp only
    rw [step_got _ _ _ _ hst, hd, se, hst, hsub, hc, List.count_append, List.count_singleton]
    by_cases hj : j = i
    · subst hj; simp [pending, Nat.mul_add]; omega
    · simp [pending, hj]
  | take j k hst hsub hg =>
    dsimp only
    rw [se, hst, hsub, List.count_append, List.count_singleton]
    by_cases hj : j = i
    · subst hj; simp [pending]; omega
    · simp [pending, hj]
  | idle hst hsub =>
    dsimp only
    rw [calls_same _ _ _ (fun i hi => by rw [hst] at hi; cases hi), hst, hsub]
    rcases step_idle c.toCfg s.base t hst with h | h <;> rw [h] <;> rfl
  | skip j hst hsub hd =>
    dsimp only
    rw [calls_same _ _ _ (fun i hi => hd), step_got _ _ _ _ hst, hd, hst, hsub]
    rfl
  | return_ j hst hsub =>
    dsimp only
    rw [calls_same _ _ _ (fun i hi => by rw [hst] at hi; cases hi), step_running _ _ _ _ hst, hst, hsub, se]
    split <;> simp [pending]
  | ran hst hsub =>
    dsimp only
    rw [calls_same _ _ _ (fun i hi => by rw [hst] at hi; cases hi), step_ran _ _ _ hst, hst, hsub]
    split <;> rfl
  | report hst hsub =>
    dsimp only
    rw [calls_same _ _ _ (fun i hi => by rw [hst] at hi; cases hi), step_report _ _ _ hst, hst, hsub]
    rfl
  | repExit hst hsub =>
    dsimp only
    rw [calls_same _ _ _ (fun i hi => by rw [hst] at hi; cases hi), step_report _ _ _ hst, hst, hsub, se]
    rfl
  | store j hst hsub =>
    dsimp only
    rw [calls_same _ _ _ (fun i hi => by rw [hst] at hi; cases hi), step_caught _ _ _ _ hst, hst, hsub, se]
    rfl
  | lockStore j hst hsub =>
    dsimp only
    rw [calls_same _ _ _ (fun i hi => by rw [hst] at hi; cases hi), step_caught _ _ _ _ hst, hst, hsub, se]
    rfl
  | leave x hst hsub hx => dsimp only; rw [se, hst, hsub]; rcases hx with rfl | rfl <;> rfl
  | leaveTake hst hsub hg => dsimp only; rw [se, hst, hsub]; rfl
  | leaveRelease hst hsub => dsimp only; rw [se, hst, hsub]; rfl
  | enter j k hst hsub => dsimp only; rw [se, hst, hsub]; rfl
  | yield j k w hst hsub => dsimp only; rw [se, hst, hsub]; rfl
  | unit j k w hst hsub => dsimp only; rw [se, hst, hsub]; rfl
  | retake j k w hst hsub hg => dsimp only; rw [se, hst, hsub]; rfl
  | exit j k hst hsub => dsimp only; rw [se, hst, hsub]; rfl
  | repEnter hst hsub => dsimp only; rw [se, hst, hsub]; rfl
  | repTake hst hsub hg => dsimp only; rw [se, hst, hsub]; rfl
  | lock j hst hsub hl => dsimp only; rw [se, hst, hsub]; rfl
  | replace j hst hsub => dsimp only; rw [se, hst, hsub]; rfl
  | lockTake j hst hsub hg => dsimp only; rw [se, hst, hsub]; rfl

theorem gstep_cases {c : GCfg} {s s' : GSys} {a : Act} (h : GInv c s) (hs : gstep c s a = some s') :
    (∃ t, t < c.threads ∧ s.phase = .loop ∧ TStep c s t s') ∨ (s'.base = s.base ∧ s'.sub = s.sub ∧ s'.pyCalls = s.pyCalls) := by
  cases a with
  | thread t b =>
    simp only [gstep] at hs
    split at hs
    · rename_i hc
      exact Or.inl ⟨t, hc.2, hc.1, tstep_of (h.fits t) hs⟩
    · cases hs
  | main =>
    refine Or.inr ?_
    simp only [gstep] at hs
    repeat' split at hs
    all_goals first | (cases hs; done) | (obtain rfl := Option.some.inj hs; exact ⟨rfl, rfl, rfl⟩)
  | other =>
    refine Or.inr ?_
    simp only [gstep] at hs
    repeat' split at hs
    all_goals first | (cases hs; done) | (obtain rfl := Option.some.inj hs; exact ⟨rfl, rfl, rfl⟩)

theorem balanced_run {c : GCfg} (as : List Act) : ∀ {s : GSys}, GInv c s → Balanced c s → Balanced c (grun c s as) := by
  induction as with
  | nil => exact fun _ h => h
  | cons a as ih =>
    intro s hi h
    rw [grun_cons]
    cases hs : gstep c s a with
    | none => exact ih hi h
    | some s' =>
      refine ih (ginv_step hi a hs) ?_
      rcases gstep_cases hi hs with ⟨t, ht, _, h1⟩ | ⟨h1, h2, h3⟩
      · exact balanced_step ht h h1
      · intro i; rw [h1, h2, h3]; exact h i

theorem balanced_init (c : GCfg) (count : Nat → Nat) : Balanced c (ginit count) := by
  intro i; simp [ginit, init, pending]

/-! ### Termination and absence of deadlocks -/

/-- The remaining work in k Python sections of the index i. -/
def cost (c : GCfg) (i k : Nat) : Nat := ∑ j ∈ Finset.range k, (2 * c.units i j + 3)

/-- The remaining work of a thread. -/
def grank (c : GCfg) : TS → Sub → Nat
  | .idle, .plain => 1 | .idle, .leavePy => 2 | .idle, .leaveWait => 3 | .idle, .leaving => 4 | .idle, _ => 0
  | .got i, _ => 11 + cost c i (c.sections i)
  | .running i, .native k => 10 + cost c i k
  | .running i, .wait k => 10 + cost c i k + 2 * c.units i k + 2
  | .running i, .py k w => 10 + cost c i k + 2 * w + 1
  | .running i, .rewait k w => 10 + cost c i k + 2 * w + 2
  | .running _, _ => 0
  | .ran, _ => 5
  | .report, .plain => 4 | .report, .repWait => 3 | .report, _ => 2
  | .caught _, .plain => 9 | .caught _, .locked => 8 | .caught _, .lockedWait => 7 | .caught _, _ => 6
  | .fin, _ => 0

/-- The remaining steps of the main thread outside of the loop. -/
def prank : Phase → Nat
  | .calling => 3 | .loop => 2 | .finished => 1 | .returned => 0

/-- The remaining work. -/
def gwork (c : GCfg) (s : GSys) : Nat :=
  prank s.phase + ∑ i ∈ Finset.Ico s.base.next c.n, (11 + cost c i (c.sections i)) + ∑ t ∈ Finset.range c.threads, grank c (s.base.st t) (s.sub t)

theorem step_next (c : Cfg) (s : Sys) (t : Nat) (h : s.st t ≠ .idle) : (step c s t).next = s.next := by
  unfold step
  split
  · exact absurd ‹_› h
  · split <;> rfl
  · split <;> rfl
  · dsimp only; split <;> rfl
  · rfl
  · rfl
  · rfl

theorem gwork_tstep {c : GCfg} {s s' : GSys} {t : Nat} (ht : t < c.threads) (h : TStep c s t s') : gwork c s' < gwork c s := by
  have hl := local_of h
  have hsum := sum_local (g := fun u => grank c (s.base.st u) (s.sub u)) (g' := fun u => grank c (s'.base.st u) (s'.sub u)) ht (fun u hu => by rw [hl.st u hu, hl.sub u hu])
  unfold gwork
  rw [hl.phase]
  have se := fun x => upd_eq' s.sub t x
  by_cases hnext : s'.base.next = s.base.next
  · suffices hh : grank c (s'.base.st t) (s'.sub t) < grank c (s.base.st t) (s.sub t) by
      rw [hnext]; omega
    cases h with
    | begin j hst hsub hd =>
      dsimp only; rw [step_got _ _ _ _ hst, hd, se, hst, hsub]
      show 10 + _ < 11 + _; omega
    | take j k hst hsub hg => dsimp only; rw [se, hst, hsub]; simp only [grank]; omega
    | idle hst hsub =>
      dsimp only at hnext ⊢
      rw [hst, hsub]
      have : (step c.toCfg s.base t).st t = .fin := by
        unfold step at hnext ⊢
        rw [hst] at hnext ⊢
        dsimp only at hnext ⊢
        split at hnext
        · dsimp only at hnext; omega
        · rename_i hn; rw [if_neg hn]; exact upd_eq' _ _ _
      rw [this]; simp [grank]
    | skip j hst hsub hd => dsimp only; rw [step_got _ _ _ _ hst, hd, hst, hsub]; show 1 < 11 + _; omega
    | return_ j hst hsub =>
      dsimp only; rw [step_running _ _ _ _ hst, hst, hsub, se]
      split
      · show 9 < 10 + _; omega
      · show 5 < 10 + _; omega
    | ran hst hsub => dsimp only; rw [step_ran _ _ _ hst, hst, hsub]; split <;> simp [grank]
    | report hst hsub => dsimp only; rw [step_report _ _ _ hst, hst, hsub]; simp [grank]
    | repExit hst hsub => dsimp only; rw [step_report _ _ _ hst, hst, hsub, se]; simp [grank]
    | store j hst hsub => dsimp only; rw [step_caught _ _ _ _ hst, hst, hsub, se]; simp [grank]
    | lockStore j hst hsub => dsimp only; rw [step_caught _ _ _ _ hst, hst, hsub, se]; simp [grank]
    | leave x hst hsub hx => dsimp only; rw [se, hst, hsub]; rcases hx with rfl | rfl <;> simp [grank]
    | leaveTake hst hsub hg => dsimp only; rw [se, hst, hsub]; simp [grank]
    | leaveRelease hst hsub => dsimp only; rw [se, hst, hsub]; simp [grank]
    | enter j k hst hsub =>
      dsimp only; rw [se, hst, hsub]; simp only [grank, cost, Finset.sum_range_succ]; omega
    | yield j k w hst hsub => dsimp only; rw [se, hst, hsub]; simp only [grank]; omega
    | unit j k w hst hsub => dsimp only; rw [se, hst, hsub]; simp only [grank]; omega
    | retake j k w hst hsub hg => dsimp only; rw [se, hst, hsub]; simp only [grank]; omega
    | exit j k hst hsub => dsimp only; rw [se, hst, hsub]; simp only [grank]; omega
    | repEnter hst hsub => dsimp only; rw [se, hst, hsub]; simp [grank]
    | repTake hst hsub hg => dsimp only; rw [se, hst, hsub]; simp [grank]
    | lock j hst hsub hl => dsimp only; rw [se, hst, hsub]; simp [grank]
    | replace j hst hsub => dsimp only; rw [se, hst, hsub]; simp [grank]
    | lockTake j hst hsub hg => dsimp only; rw [se, hst, hsub]; simp [grank]
  · have hne : ∀ st : TS, s.base.st t = st → st ≠ .idle → s'.base = step c.toCfg s.base t ∨ s'.base = s.base → False := fun st h1 h2 h3 => by
      rcases h3 with h3 | h3
      · exact hnext (by rw [h3]; exact step_next _ _ _ (by rw [h1]; exact h2))
      · exact hnext (by rw [h3])
    have hid : s.base.st t = .idle := by
      by_contra hc
      exact hne _ rfl hc (tstep_base h).symm
    cases h with
    | idle hst hsub =>
      dsimp only at hnext hsum ⊢
      have hlt : s.base.next < c.n := by
        by_contra hc
        apply hnext
        unfold step
        rw [hst]
        dsimp only
        rw [if_neg hc]
      have h1 : (step c.toCfg s.base t).next = s.base.next + 1 := by
        unfold step; rw [hst]; dsimp only; rw [if_pos hlt]
      have h2 : (step c.toCfg s.base t).st t = .got s.base.next := by
        unfold step; rw [hst]; dsimp only; rw [if_pos hlt]; exact upd_eq' _ _ _
      rw [h2, hst, hsub] at hsum
      rw [h1, Finset.sum_eq_sum_Ico_succ_bot hlt]
      have hA : grank c (.got s.base.next) .plain = 11 + cost c s.base.next (c.sections s.base.next) := rfl
      have hB : grank c .idle .plain = 1 := rfl
      rw [hA, hB] at hsum
      omega
    | leave x hst hsub hx => exact absurd rfl hnext
    | leaveTake hst hsub hg => exact absurd rfl hnext
    | leaveRelease hst hsub => exact absurd rfl hnext
    | skip i hst hsub hd => rw [hid] at hst; cases hst
    | begin i hst hsub hd => rw [hid] at hst; cases hst
    | enter i k hst hsub => rw [hid] at hst; cases hst
    | take i k hst hsub hg => rw [hid] at hst; cases hst
    | yield i k w hst hsub => rw [hid] at hst; cases hst
    | unit i k w hst hsub => rw [hid] at hst; cases hst
    | retake i k w hst hsub hg => rw [hid] at hst; cases hst
    | exit i k hst hsub => rw [hid] at hst; cases hst
    | return_ i hst hsub => rw [hid] at hst; cases hst
    | ran hst hsub => rw [hid] at hst; cases hst
    | report hst hsub => rw [hid] at hst; cases hst
    | repEnter hst hsub => rw [hid] at hst; cases hst
    | repTake hst hsub hg => rw [hid] at hst; cases hst
    | repExit hst hsub => rw [hid] at hst; cases hst
    | lock i hst hsub hl => rw [hid] at hst; cases hst
    | replace i hst hsub => rw [hid] at hst; cases hst
    | store i hst hsub => rw [hid] at hst; cases hst
    | lockTake i hst hsub hg => rw [hid] at hst; cases hst
    | lockStore i hst hsub => rw [hid] at hst; cases hst

theorem gwork_other {c : GCfg} {s s' : GSys} (hs : gstep c s .other = some s') : gwork c s' = gwork c s := by
  simp only [gstep] at hs
  split at hs
  · obtain rfl := Option.some.inj hs; rfl
  · obtain rfl := Option.some.inj hs; rfl
  · cases hs

theorem gwork_main {c : GCfg} {s s' : GSys} (hs : gstep c s .main = some s') : gwork c s' < gwork c s := by
  simp only [gstep] at hs
  split at hs
  · rename_i hp
    obtain rfl := Option.some.inj hs; unfold gwork; rw [hp]; simp only [prank]; omega
  · rename_i hp
    split at hs
    · obtain rfl := Option.some.inj hs; unfold gwork; rw [hp]; simp only [prank]; omega
    · cases hs
  · rename_i hp
    split at hs
    · obtain rfl := Option.some.inj hs; unfold gwork; rw [hp]; simp only [prank]; omega
    · cases hs
  · cases hs

/-- The number of steps of the team and of the main thread that were made in a history. -/
def made (c : GCfg) : GSys → List Act → Nat
  | _, [] => 0
  | s, a :: as => match gstep c s a with
    | some s' => (if a = .other then 0 else 1) + made c s' as
    | none => made c s as

theorem made_le {c : GCfg} (as : List Act) : ∀ {s : GSys}, GInv c s → made c s as + gwork c (grun c s as) ≤ gwork c s := by
  induction as with
  | nil => intro s _; simp [made, grun]
  | cons a as ih =>
    intro s h
    rw [grun_cons]
    unfold made
    cases hs : gstep c s a with
    | none => exact ih h
    | some s' =>
      have h1 := ih (ginv_step h a hs)
      dsimp only
      cases a with
      | other =>
        rw [if_pos rfl]
        have := gwork_other hs
        omega
      | main =>
        rw [if_neg (by decide)]
        have := gwork_main hs
        omega
      | thread t b =>
        rw [if_neg (by simp)]
        have : gwork c s' < gwork c s := by
          simp only [gstep] at hs
          split at hs
          · rename_i hc
            exact gwork_tstep hc.2 (tstep_of (h.fits t) hs)
          · cases hs
        omega

/-- A thread that is not finished and does not wait for a lock that someone else has can make a step. -/
theorem thread_enabled {c : GCfg} {s : GSys} {t : Nat} (hf : Fits (s.base.st t) (s.sub t) = true) (hfin : s.base.st t ≠ .fin)
    (hg : s.gil = .free ∨ inPython (s.sub t) = true) (hl : s.explock = none ∨ inLock (s.sub t) = true ∨ ∀ i, s.base.st t ≠ .caught i) : ∃ s', threadStep c s t false = some s' := by
  cases hst : s.base.st t with
  | fin => exact absurd hst hfin
  | idle =>
    cases hsub : s.sub t with
    | leaveWait =>
      rw [hsub] at hg
      exact ⟨_, by simp only [threadStep, hst, hsub]; rw [if_pos (hg.resolve_right (by simp [inPython]))]⟩
    | _ => exact ⟨_, by simp only [threadStep, hst, hsub]; rfl⟩
  | got i =>
    cases hd : s.base.done
    · exact ⟨_, by simp only [threadStep, hst]; rw [hd]; rfl⟩
    · exact ⟨_, by simp only [threadStep, hst]; rw [hd]; rfl⟩
  | running i =>
    cases hsub : s.sub t with
    | native k => cases k <;> exact ⟨_, by simp only [threadStep, hst, hsub]; rfl⟩
    | wait k =>
      rw [hsub] at hg
      exact ⟨_, by simp only [threadStep, hst, hsub]; rw [if_pos (hg.resolve_right (by simp [inPython]))]⟩
    | rewait k w =>
      rw [hsub] at hg
      exact ⟨_, by simp only [threadStep, hst, hsub]; rw [if_pos (hg.resolve_right (by simp [inPython]))]⟩
    | py k w => cases w <;> exact ⟨_, by simp only [threadStep, hst, hsub]; rfl⟩
    | _ => rw [hst, hsub] at hf; exact absurd hf Bool.false_ne_true
  | ran => exact ⟨_, by simp only [threadStep, hst]; rfl⟩
  | report =>
    cases hsub : s.sub t with
    | repWait =>
      rw [hsub] at hg
      exact ⟨_, by simp only [threadStep, hst, hsub]; rw [if_pos (hg.resolve_right (by simp [inPython]))]⟩
    | plain => cases hp : c.pyProgress <;> exact ⟨_, by simp only [threadStep, hst, hsub, hp]; rfl⟩
    | repPy => exact ⟨_, by simp only [threadStep, hst, hsub]; rfl⟩
    | _ => rw [hst, hsub] at hf; exact absurd hf Bool.false_ne_true
  | caught i =>
    have hl' : s.explock = none ∨ inLock (s.sub t) = true := by
      rcases hl with hl | hl | hl
      · exact Or.inl hl
      · exact Or.inr hl
      · exact absurd hst (hl i)
    cases hsub : s.sub t with
    | plain =>
      rw [hsub] at hl'
      exact ⟨_, by simp only [threadStep, hst, hsub]; rw [if_pos (hl'.resolve_right (by simp [inLock]))]⟩
    | locked => exact ⟨_, by simp only [threadStep, hst, hsub, Bool.and_false]; rfl⟩
    | lockedWait =>
      rw [hsub] at hg
      exact ⟨_, by simp only [threadStep, hst, hsub]; rw [if_pos (hg.resolve_right (by simp [inPython]))]⟩
    | lockedPy => exact ⟨_, by simp only [threadStep, hst, hsub]; rfl⟩
    | _ => rw [hst, hsub] at hf; exact absurd hf Bool.false_ne_true

theorem no_deadlock {c : GCfg} {s : GSys} (h : GInv c s) (hr : s.phase ≠ .returned) (ho : s.gil ≠ .other) : ∃ a s', a ≠ .other ∧ gstep c s a = some s' := by
  cases hp : s.phase with
  | calling => exact ⟨.main, _, by decide, by simp only [gstep, hp]; rfl⟩
  | returned => exact absurd hp hr
  | finished =>
    have hg : s.gil = .free := by
      cases hg : s.gil with
      | free => rfl
      | other => exact absurd hg ho
      | thread t => exact absurd hg (h.finished hp t)
    exact ⟨.main, _, by decide, by simp only [gstep, hp, hg, if_true]; rfl⟩
  | loop =>
    by_cases hd : ∀ t < c.threads, s.base.st t = .fin
    · exact ⟨.main, _, by decide, by simp only [gstep, hp]; rw [if_pos hd]⟩
    · push Not at hd
      obtain ⟨t, ht, hfin⟩ := hd
      suffices hh : ∃ t, t < c.threads ∧ ∃ s', threadStep c s t false = some s' by
        obtain ⟨t, ht, s', hs⟩ := hh
        exact ⟨.thread t false, s', by simp, by simp only [gstep]; rw [if_pos ⟨hp, ht⟩]; exact hs⟩
      have notfin : ∀ u, s.sub u ≠ .plain → s.base.st u ≠ .fin := fun u hu hc => by
        have hf := h.fits u
        rw [hc] at hf
        cases hsub : s.sub u <;> rw [hsub] at hf <;> first | exact absurd hsub hu | exact absurd hf Bool.false_ne_true
      cases hg : s.gil with
      | other => exact absurd hg ho
      | thread u =>
        have hpy := (h.gil hp u).mpr hg
        refine ⟨u, h.loop hp u hg, thread_enabled (h.fits u) (notfin u ?_) (Or.inr hpy) ?_⟩
        · intro hc; rw [hc] at hpy; exact absurd hpy Bool.false_ne_true
        · have hf := h.fits u
          by_cases hl : inLock (s.sub u) = true
          · exact Or.inr (Or.inl hl)
          · refine Or.inr (Or.inr fun i hi => ?_)
            rw [hi] at hf
            cases hsub : s.sub u <;> rw [hsub] at hf hl hpy <;> first | exact absurd hf Bool.false_ne_true | exact absurd hpy Bool.false_ne_true | exact absurd rfl hl
      | free =>
        cases hl : s.explock with
        | none => exact ⟨t, ht, thread_enabled (h.fits t) hfin (Or.inl hg) (Or.inl hl)⟩
        | some u =>
          have hlk := (h.lock u).mpr hl
          refine ⟨u, h.lockLt u hl, thread_enabled (h.fits u) (notfin u ?_) (Or.inl hg) (Or.inr (Or.inl hlk))⟩
          intro hc; rw [hc] at hlk; exact absurd hlk Bool.false_ne_true

/-! ### The theorems -/

/-- The states that a call of a bound function with a parallel loop can reach: any number of indices and threads, any interleaving with the other threads of the Python program. -/
def Reachable (c : GCfg) (s : GSys) : Prop := ∃ count as, s = grun c (ginit count) as

theorem Reachable.inv {c : GCfg} {s : GSys} (h : Reachable c s) : GInv c s := by
  obtain ⟨count, as, rfl⟩ := h
  exact ginv_run as (ginv_init c count)

/-- C103. Two threads never run Python code at the same time: neither two threads of the team, nor a thread of the team and the rest of the Python program, nor a thread of the team while the main thread is in Python before or after the loop. -/
theorem C103_exclusive (c : GCfg) (s : GSys) (h : Reachable c s) (t : Nat) (ht : inPython (s.sub t) = true) :
    s.gil = .thread t ∧ s.phase = .loop ∧ ∀ u, inPython (s.sub u) = true → u = t := by
  have hi := h.inv
  have hp : s.phase = .loop := by
    by_contra hc
    rw [hi.outside hc t] at ht; cases ht
  refine ⟨(hi.gil hp t).mp ht, hp, fun u hu => ?_⟩
  have h1 := (hi.gil hp t).mp ht
  rw [(hi.gil hp u).mp hu] at h1
  exact Gil.thread.inj h1

/-- C103. There is no deadlock, whatever raises exceptions: as long as the call has not returned, some thread of the team or the main thread can make a step, unless the GIL is with a thread of the Python program that does not take part in the loop
    (and when that thread releases it, someone can). -/
theorem C103_no_deadlock (c : GCfg) (s : GSys) (h : Reachable c s) (hr : s.phase ≠ .returned) :
    (∃ a s', a ≠ .other ∧ gstep c s a = some s') ∨ (s.gil = .other ∧ ∃ s' s'' a, gstep c s .other = some s' ∧ a ≠ .other ∧ gstep c s' a = some s'') := by
  by_cases ho : s.gil = .other
  · refine Or.inr ⟨ho, ?_⟩
    have hs : gstep c s .other = some { s with gil := .free } := by simp only [gstep, ho]
    obtain ⟨a, s'', h1, h2⟩ := no_deadlock (ginv_step h.inv .other hs) hr (by simp)
    exact ⟨_, s'', a, hs, h1, h2⟩
  · exact Or.inl (no_deadlock h.inv hr ho)

/-- C103. The call ends: in every history, the team and the main thread make at most a fixed number of steps, which depends on the number of indices and threads and on the length of the Python code. -/
theorem C103_terminates (c : GCfg) (count : Nat → Nat) (as : List Act) :
    made c (ginit count) as ≤ 3 + c.threads + ∑ i ∈ Finset.range c.n, (11 + cost c i (c.sections i)) := by
  have h := made_le as (ginv_init c count)
  have : gwork c (ginit count) = 3 + c.threads + ∑ i ∈ Finset.range c.n, (11 + cost c i (c.sections i)) := by
    have h1 : gwork c (ginit count) = 3 + ∑ i ∈ Finset.Ico 0 c.n, (11 + cost c i (c.sections i)) + ∑ _t ∈ Finset.range c.threads, 1 := rfl
    rw [h1, Finset.sum_const, Finset.card_range, ← Finset.range_eq_Ico]
    show 3 + _ + c.threads * 1 = _
    omega
  omega

/-- C103. When the call has returned, the main thread has the GIL again, no thread is left in the loop, and no thread has the mutex. -/
theorem C103_returned (c : GCfg) (s : GSys) (h : Reachable c s) (hr : s.phase = .returned) : s.gil = .thread 0 ∧ Done c.toCfg s.base ∧ s.explock = none := by
  have hi := h.inv
  refine ⟨hi.returned hr, hi.done (Or.inr hr), ?_⟩
  cases hl : s.explock with
  | none => rfl
  | some t =>
    have h1 := (hi.lock t).mpr hl
    have h2 := hi.done (Or.inr hr) t (hi.lockLt t hl)
    have hf := hi.fits t
    rw [h2] at hf
    cases hsub : s.sub t <;> rw [hsub] at hf h1 <;> first | exact absurd hf Bool.false_ne_true | exact absurd h1 Bool.false_ne_true

theorem pending_done {c : GCfg} {s : GSys} (hd : Done c.toCfg s.base) (i : Nat) : ∑ t ∈ Finset.range c.threads, pending i (s.base.st t) (s.sub t) = 0 := by
  apply Finset.sum_eq_zero
  intro t ht
  rw [hd t (Finset.mem_range.mp ht)]
  rfl

/-- C103. If the process function raises no exception, then when the call returns, Python code has been entered for every index exactly as often as the process function needs it, for no other index, and no exception is raised. -/
theorem C103_sections (c : GCfg) (ht : 0 < c.threads) (hno : ∀ i < c.n, c.throws i = false) (s : GSys) (h : Reachable c s) (hr : s.phase = .returned) :
    (∀ i, s.pyCalls.count i = if i < c.n then c.sections i else 0) ∧ rethrown s.base = none := by
  have hd := (C103_returned c s h hr).2.1
  obtain ⟨count, as, rfl⟩ := h
  have hb := balanced_run as (ginv_init c count) (balanced_init c count)
  obtain ⟨sched, h1, h2⟩ := grun_init c count as
  rw [h2] at hd
  obtain ⟨hperm, _, hre⟩ := C17_each_index_once c.toCfg count sched h1 ht hno hd
  refine ⟨fun i => ?_, by rw [h2]; exact hre⟩
  have hbi := hb i
  rw [pending_done (by rw [h2]; exact hd) i, Nat.add_zero, h2, hperm.count_eq, List.count_range] at hbi
  rw [hbi]
  split <;> simp

/-- C103. parallel.foreach of Python, with a function that raises no exception: when it returns, the function has been called exactly once with each of the indices 0..n-1, and with nothing else, for every number of threads and every interleaving. -/
theorem C103_foreach (n threads interval : Nat) (units : Nat → Nat) (ht : 0 < threads) (s : GSys) (h : Reachable (foreachCfg n threads interval (fun _ => false) units) s) (hr : s.phase = .returned) :
    s.pyCalls.Perm (List.range n) ∧ rethrown s.base = none := by
  obtain ⟨h1, h2⟩ := C103_sections _ ht (fun _ _ => rfl) s h hr
  refine ⟨List.perm_iff_count.mpr fun i => ?_, h2⟩
  rw [h1 i, List.count_range]
  rfl

/-- C103. parallel.foreach of Python, with a function that raises exceptions for some of the indices: when the call returns, it has called the function at most once for each index and only for indices 0..n-1. It raises an exception exactly if one of these calls raised one,
    and the exception is one of those raised. If it raises none, the function was called for all indices. -/
theorem C103_exception (n threads interval : Nat) (throws : Nat → Bool) (units : Nat → Nat) (ht : 0 < threads) (s : GSys) (h : Reachable (foreachCfg n threads interval throws units) s) (hr : s.phase = .returned) :
    s.pyCalls.Nodup ∧ (∀ i ∈ s.pyCalls, i < n) ∧ (rethrown s.base = none ↔ ∀ i ∈ s.pyCalls, throws i = false) ∧
    (∀ i, rethrown s.base = some i → i ∈ s.pyCalls ∧ throws i = true) ∧ (rethrown s.base = none → ∀ i < n, i ∈ s.pyCalls) := by
  have hd := (C103_returned _ s h hr).2.1
  obtain ⟨count, as, rfl⟩ := h
  have hb := balanced_run as (ginv_init (foreachCfg n threads interval throws units) count) (balanced_init _ count)
  obtain ⟨sched, h1, h2⟩ := grun_init (foreachCfg n threads interval throws units) count as
  have hperm : (grun (foreachCfg n threads interval throws units) (ginit count) as).pyCalls.Perm (grun (foreachCfg n threads interval throws units) (ginit count) as).base.calls := by
    refine List.perm_iff_count.mpr fun i => ?_
    have hbi := hb i
    rw [pending_done hd i, Nat.add_zero] at hbi
    rw [hbi]
    exact Nat.one_mul _
  rw [h2] at hd
  obtain ⟨a1, a2, a3, a4, a5⟩ := C18_exceptions _ count sched h1 hd
  have a6 := C18_no_silent_skip _ count sched h1 ht hd
  rw [← h2] at a1 a2 a3 a4 a5 a6
  have hmem : ∀ i, i ∈ (grun (foreachCfg n threads interval throws units) (ginit count) as).pyCalls ↔ i ∈ (grun (foreachCfg n threads interval throws units) (ginit count) as).base.calls := fun i => hperm.mem_iff
  refine ⟨hperm.nodup_iff.mpr a1, fun i hi => a2 i ((hmem i).mp hi), ?_, fun i hi => ?_, fun hre i hi => ?_⟩
  · exact a3.trans ⟨fun h i hi => h i ((hmem i).mp hi), fun h i hi => h i ((hmem i).mpr hi)⟩
  · exact ⟨(hmem i).mpr (a4 i hi).1, (a4 i hi).2⟩
  · have hended := a6 hre i hi
    have : i ∈ (grun (foreachCfg n threads interval throws units) (ginit count) as).base.calls := by
      have hinv := inv_run _ _ sched h1 (inv_init (foreachCfg n threads interval throws units).toCfg count)
      rw [← h2] at hinv
      exact (hinv.ended i hended).1
    exact (hmem i).mpr this

/-- From every reachable state the call can return: the hypotheses of the theorems above are met for every loop. -/
theorem can_return {c : GCfg} (s : GSys) (h : GInv c s) : ∃ as, (grun c s as).phase = .returned := by
  induction hw : gwork c s using Nat.strong_induction_on generalizing s with
  | _ w ih =>
    by_cases hr : s.phase = .returned
    · exact ⟨[], hr⟩
    · have key : ∀ s : GSys, GInv c s → gwork c s = w → s.phase ≠ .returned → s.gil ≠ .other → ∃ as, (grun c s as).phase = .returned := fun s h hw hr ho => by
        obtain ⟨a, s', ha, hs⟩ := no_deadlock h hr ho
        have hlt : gwork c s' < gwork c s := by
          cases a with
          | other => exact absurd rfl ha
          | main => exact gwork_main hs
          | thread t b =>
            simp only [gstep] at hs
            split at hs
            · rename_i hc
              exact gwork_tstep hc.2 (tstep_of (h.fits t) hs)
            · cases hs
        obtain ⟨as, has⟩ := ih _ (hw ▸ hlt) s' (ginv_step h a hs) rfl
        exact ⟨a :: as, by rw [grun_cons, hs]; exact has⟩
      by_cases ho : s.gil = .other
      · have hs : gstep c s .other = some { s with gil := .free } := by simp only [gstep, ho]
        obtain ⟨as, has⟩ := key _ (ginv_step h .other hs) ((gwork_other hs).trans hw) hr (by simp)
        exact ⟨.other :: as, by rw [grun_cons, hs]; exact has⟩
      · exact key s h hw hr ho

/-- Every call of parallel.foreach can return. -/
example (n threads interval : Nat) (throws : Nat → Bool) (units : Nat → Nat) : ∃ s, Reachable (foreachCfg n threads interval throws units) s ∧ s.phase = .returned := by
  obtain ⟨as, has⟩ := can_return (ginit fun _ => 0) (ginv_init (foreachCfg n threads interval throws units) fun _ => 0)
  exact ⟨_, ⟨_, as, rfl⟩, has⟩

/-- Two threads and a function that raises an exception for both indices: thread 1 destroys the exception of thread 0 under the mutex, for which it needs the GIL that thread 0 has; thread 0 runs on. -/
example :
    let c := foreachCfg 2 2 1024 (fun _ => true) (fun _ => 1)
    let s := grun c (ginit fun _ => 0) ([.main] ++ List.replicate 2 (.thread 0 false) ++ List.replicate 2 (.thread 1 false) ++ List.replicate 5 (.thread 0 false) ++ List.replicate 5 (.thread 1 false) ++
      [.thread 0 false, .thread 0 false, .thread 1 false, .thread 1 true, .thread 0 true, .thread 0 true, .thread 1 true])
    s.sub 0 = .leavePy ∧ s.sub 1 = .lockedWait ∧ s.gil = .thread 0 ∧ s.explock = some 1 ∧ gstep c s (.thread 1 true) = none ∧ gstep c s (.thread 0 true) ≠ none ∧
    (grun c s ([.thread 0 true, .thread 1 true, .thread 1 true, .thread 1 false, .thread 0 true, .thread 1 true, .main, .other, .main, .other, .main])).phase = .returned ∧
    rethrown (grun c s ([.thread 0 true, .thread 1 true, .thread 1 true, .thread 1 false, .thread 0 true, .thread 1 true, .main, .other, .main, .other, .main])).base = some 1 := by
  decide

end LM.PyParallel
