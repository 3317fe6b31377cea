import Verif.Model.Fpex
/-
  C91: Temporarily disabling floating-point exceptions.
-/
namespace LM.Fpex

/-! ### Specification: the setting is lexically scoped -/

/-- With exceptions on, invalid operations and divisions by zero are reported. -/
def Reported (on : Bool) (e : Exc) : Prop := on = true ∧ (e = .invalid ∨ e = .zeroDivide)

mutual
/-- What is promised: a statement executed with the setting `on` leaves the setting `on'`, with the events and, if it threw, `true`.
    In a guarded block the setting is off; after it, however it ended, it is what it was before. -/
inductive Runs : Code → Bool → Bool → List Event → Bool → Prop
  | quiet (n e on) : ¬ Reported on e → Runs (.op n e) on on [⟨n, false⟩] false
  | trap (n e on) : Reported on e → Runs (.op n e) on on [⟨n, true⟩] true
  | throw (on) : Runs .throw on on [] true
  | enable (on) : Runs .enable on true [] false
  | disable (on) : Runs .disable on false [] false
  | guarded (body on on' evs thrown) : RunsAll body false on' evs thrown → Runs (.guarded body) on on evs thrown
  | attempt (body on on' evs thrown) : RunsAll body on on' evs thrown → Runs (.attempt body) on on' evs false
/-- The same for a sequence of statements. -/
inductive RunsAll : List Code → Bool → Bool → List Event → Bool → Prop
  | nil (on) : RunsAll [] on on [] false
  | stop (c cs on on' evs) : Runs c on on' evs true → RunsAll (c :: cs) on on' evs true
  | next (c cs on on' on'' evs evs' thrown) : Runs c on on' evs false → RunsAll cs on' on'' evs' thrown → RunsAll (c :: cs) on on'' (evs ++ evs') thrown
end

/-- The mask of a setting. -/
def maskOf (on : Bool) : Mask := if on then enabledMask else defaultMask

mutual
/-- Code as it may appear inside a guarded block (`inside`) or outside of all: guards are not nested, and the setting is not changed by hand, except that it may be turned on outside. -/
def Tidy (inside : Bool) : Code → Prop
  | .op _ _ => True
  | .throw => True
  | .enable => inside = false
  | .disable => False
  | .guarded body => inside = false ∧ TidyAll true body
  | .attempt body => TidyAll inside body
/-- The same for a sequence. -/
def TidyAll (inside : Bool) : List Code → Prop
  | [] => True
  | c :: cs => Tidy inside c ∧ TidyAll inside cs
end

theorem maskOf_iff (on : Bool) (e : Exc) : maskOf on e = true ↔ ¬ Reported on e := by
  cases on <;> cases e <;> simp [maskOf, Reported, enabledMask, defaultMask]

theorem runs_op (n : Nat) (e : Exc) (on : Bool) : Runs (.op n e) on on (exec true (.op n e) (maskOf on)).evs (exec true (.op n e) (maskOf on)).thrown ∧ (exec true (.op n e) (maskOf on)).st = maskOf on := by
  by_cases h : maskOf on e = true
  · simp only [exec, h, if_true]
    exact ⟨.quiet _ _ _ ((maskOf_iff _ _).mp h), trivial⟩
  · simp only [exec, h]
    exact ⟨.trap _ _ _ (by by_contra hc; exact h ((maskOf_iff _ _).mpr hc)), rfl⟩

mutual
theorem tidy_exec : ∀ (c : Code) (inside : Bool), Tidy inside c →
    Runs c (!inside) (!inside) (exec true c (maskOf !inside)).evs (exec true c (maskOf !inside)).thrown ∧ (exec true c (maskOf !inside)).st = maskOf !inside
  | .op n e, inside, _ => runs_op n e _
  | .throw, inside, _ => ⟨.throw _, rfl⟩
  | .enable, inside, h => by
    obtain rfl : inside = false := h
    exact ⟨.enable _, rfl⟩
  | .disable, _, h => h.elim
  | .guarded body, inside, h => by
    obtain ⟨rfl, hb⟩ := h
    have := tidy_execs body true hb
    exact ⟨.guarded _ _ _ _ _ this.1, rfl⟩
  | .attempt body, inside, h => by
    have := tidy_execs body inside h
    exact ⟨.attempt _ _ _ _ _ this.1, this.2⟩
theorem tidy_execs : ∀ (cs : List Code) (inside : Bool), TidyAll inside cs →
    RunsAll cs (!inside) (!inside) (exec.execs true cs (maskOf !inside)).evs (exec.execs true cs (maskOf !inside)).thrown ∧ (exec.execs true cs (maskOf !inside)).st = maskOf !inside
  | [], inside, _ => ⟨.nil _, rfl⟩
  | c :: cs, inside, h => by
    obtain ⟨h1, h2⟩ := tidy_exec c inside h.1
    obtain ⟨k1, k2⟩ := tidy_execs cs inside h.2
    simp only [exec.execs]
    cases ht : (exec true c (maskOf !inside)).thrown with
    | true =>
      rw [ht] at h1
      exact ⟨by simpa [ht] using .stop _ _ _ _ _ h1, by simpa [ht] using h2⟩
    | false =>
      rw [ht] at h1
      simp only [Bool.false_eq_true, if_false]
      rw [h2]
      exact ⟨.next _ _ _ _ _ _ _ _ h1 k1, k2⟩
end

/-! ### Theorems -/

/-- C91, on a thread with exceptions on: code whose guards are not nested behaves as if the setting were lexically scoped: nothing traps inside the guarded blocks, invalid operations and divisions by zero trap
    outside of them, also after blocks that ended by an exception, and at the end exceptions are on again.
    Missing: nested guards, guards on threads with exceptions off (`C91_negation_nested`, `C91_negation_disabled`, `C91_negation_worker`). -/
theorem C91_scopes_partial (cs : List Code) (h : TidyAll false cs) :
    ∃ r, exec.execs true cs enabledMask = r ∧ RunsAll cs true true r.evs r.thrown ∧ r.st = enabledMask :=
  ⟨_, rfl, tidy_execs cs false h⟩

mutual
theorem quiet_exec : ∀ (c : Code), Tidy true c → ∀ ev ∈ (exec true c defaultMask).evs, ev.trapped = false
  | .op n e, _ => by simp [exec, defaultMask]
  | .throw, _ => by simp [exec]
  | .enable, h => by cases h
  | .disable, h => h.elim
  | .guarded body, h => by cases h.1
  | .attempt body, h => quiet_execs body h
theorem quiet_execs : ∀ (cs : List Code), TidyAll true cs → ∀ ev ∈ (exec.execs true cs defaultMask).evs, ev.trapped = false
  | [], _ => by simp [exec.execs]
  | c :: cs, h => by
    intro ev hev
    simp only [exec.execs] at hev
    split at hev
    · exact quiet_exec c h.1 ev hev
    · rw [show (exec true c defaultMask).st = defaultMask from (tidy_exec c true h.1).2] at hev
      rcases List.mem_append.mp hev with hev | hev
      · exact quiet_exec c h.1 ev hev
      · exact quiet_execs cs h.2 ev hev
end

/-- C91: inside a guarded block without further guards nothing traps, whatever the setting before it. -/
theorem C91_inside (body : List Code) (h : TidyAll true body) (m : Mask) : ∀ ev ∈ (exec true (.guarded body) m).evs, ev.trapped = false := by
  intro ev hev
  exact quiet_execs body h ev hev

mutual
theorem plain_exec : ∀ (c : Code) (m : Mask), (exec false c m).st = m
  | .op n e, m => by unfold exec; split <;> rfl
  | .throw, m => rfl
  | .enable, m => rfl
  | .disable, m => rfl
  | .guarded body, m => plain_execs body m
  | .attempt body, m => plain_execs body m
theorem plain_execs : ∀ (cs : List Code) (m : Mask), (exec.execs false cs m).st = m
  | [], m => rfl
  | c :: cs, m => by
    simp only [exec.execs]
    split
    · exact plain_exec c m
    · show (exec.execs false cs (exec false c m).st).st = m
      rw [plain_exec c m]
      exact plain_execs cs m
end

/-- C91: on other platforms no call and no history of actions changes the setting of any thread. -/
theorem C91_elsewhere (as : List Act) (p : Proc) : (runs false p as).1 = p := by
  induction as generalizing p with
  | nil => rfl
  | cons a as ih =>
    have h : (step false p a).1 = p := by
      cases a with
      | init t => simp [step, enable, setState]
      | shutdown t => simp [step, disable, setState]
      | run t code => simp [step, plain_execs]
    show (runs false (step false p a).1 as).1 = p
    rw [h]
    exact ih p

/-- C91: actions on other threads do not change the setting of a thread. -/
theorem C91_threads (windows : Bool) (as : List Act) (p : Proc) (t : Nat) (h : ∀ a ∈ as, match a with | .init s => s ≠ t | .shutdown s => s ≠ t | .run s _ => s ≠ t) :
    (runs windows p as).1 t = p t := by
  induction as generalizing p with
  | nil => rfl
  | cons a as ih =>
    show (runs windows (step windows p a).1 as).1 t = p t
    rw [ih _ fun b hb => h b (List.mem_cons_of_mem _ hb)]
    have := h a List.mem_cons_self
    cases a <;> exact Function.update_of_ne (Ne.symm this) _ _

/-! ### Where the code does not restore the setting -/

theorem after_scope (body : List Code) (m : Mask) : (exec true (.guarded body) m).st = enabledMask := rfl

theorem after_guarded (body : List Code) (m : Mask) : (exec.execs true [.guarded body] m).st = enabledMask := by
  simp only [exec.execs]
  cases h : (exec true (.guarded body) m).thrown <;> simp <;> rfl

/-- The code does not restore the setting: after exceptions have been turned off on purpose, any guarded block (e.g. a ray query, or saving a film) turns them on, and the next invalid operation traps. Promised was that they
    stay off. -/
theorem C91_negation_disabled (body : List Code) (n : Nat) :
    (exec.execs true [.disable, .attempt [.guarded body]] enabledMask).st = maskOf true ∧
    (⟨n, true⟩ : Event) ∈ (exec.execs true [.disable, .attempt [.guarded body], .op n .invalid] enabledMask).evs ∧
    ∀ evs on' thrown, RunsAll [.disable, .attempt [.guarded body]] true on' evs thrown → on' = false := by
  have h := after_guarded body (disable true enabledMask)
  refine ⟨?_, ?_, ?_⟩
  · show (exec.execs true [.guarded body] (disable true enabledMask)).st = _
    exact h
  · show _ ∈ [] ++ ((exec.execs true [.guarded body] (disable true enabledMask)).evs ++ (exec.execs true [.op n .invalid] (exec.execs true [.guarded body] (disable true enabledMask)).st).evs)
    rw [h]
    simp [exec.execs, exec, enabledMask]
  · have inner : ∀ evs on' thrown, RunsAll [.guarded body] false on' evs thrown → on' = false := by
      intro evs on' thrown h
      cases h with
      | stop _ _ _ _ _ h => cases h; rfl
      | next _ _ _ _ _ _ _ _ h h' => cases h; cases h'; rfl
    intro evs on' thrown h
    cases h with
    | stop _ _ _ _ _ h => cases h
    | next _ _ _ _ _ _ _ _ h h' =>
      cases h
      cases h' with
      | stop _ _ _ _ _ h => cases h
      | next _ _ _ _ _ _ _ _ h h' =>
        cases h with
        | attempt _ _ _ _ _ h =>
          cases h'
          exact inner _ _ _ h

/-- Nested guards: when the inner block ends, exceptions are on in the rest of the outer block (e.g. a ray query inside of a guarded block), and an invalid operation traps; promised was that none does. -/
theorem C91_negation_nested (n : Nat) :
    (⟨n, true⟩ : Event) ∈ (exec.execs true [.guarded [.guarded [], .op n .invalid]] enabledMask).evs ∧
    ∀ evs on' thrown, RunsAll [.guarded [.guarded [], .op n .invalid]] true on' evs thrown → (⟨n, true⟩ : Event) ∉ evs := by
  refine ⟨by simp [exec.execs, exec, enable, setState, enabledMask], ?_⟩
  have inner : ∀ evs on' thrown, RunsAll [.guarded [], .op n .invalid] false on' evs thrown → (⟨n, true⟩ : Event) ∉ evs := by
    intro evs on' thrown h
    cases h with
    | stop _ _ _ _ _ h => cases h with | guarded _ _ _ _ _ h => cases h
    | next _ _ _ _ _ _ _ _ h h' =>
      cases h with
      | guarded _ _ _ _ _ h =>
        cases h
        cases h' with
        | stop _ _ _ _ _ h => cases h with | trap _ _ _ hr => cases hr.1
        | next _ _ _ _ _ _ _ _ h h' =>
          cases h
          cases h'
          simp
  intro evs on' thrown h
  cases h with
  | stop _ _ _ _ _ h => cases h with | guarded _ _ _ _ _ h => exact inner _ _ _ h
  | next _ _ _ _ _ _ _ _ h h' =>
    cases h with
    | guarded _ _ _ _ _ h =>
      cases h'
      rw [List.append_nil]
      exact inner _ _ _ h

/-- Threads: the framework is initialised on thread 0. On another thread an invalid operation yields a value, but the same operation traps once the thread has executed a guarded block, such as a ray query. -/
theorem C91_negation_worker (n n' : Nat) : (runs true Proc.start [.init 0, .run 1 [.op n .invalid, .guarded [], .op n' .invalid]]).2 = [[], [⟨n, false⟩, ⟨n', true⟩]] := by
  simp [runs, step, exec.execs, exec, enable, setState, enabledMask, defaultMask, Proc.start]

/-- A program that meets the hypotheses: two guarded blocks with operations inside and outside, the first left by an exception. -/
example : TidyAll false [.attempt [.guarded [.op 0 .zeroDivide, .throw]], .guarded [.op 1 .invalid], .op 2 .inexact, .op 3 .invalid, .op 4 .invalid] ∧
    (exec.execs true [.attempt [.guarded [.op 0 .zeroDivide, .throw]], .guarded [.op 1 .invalid], .op 2 .inexact, .op 3 .invalid, .op 4 .invalid] enabledMask).evs =
      [⟨0, false⟩, ⟨1, false⟩, ⟨2, false⟩, ⟨3, true⟩] := by
  constructor
  · simp [TidyAll, Tidy]
  · simp [exec.execs, exec, enable, disable, setState, enabledMask, defaultMask]

end LM.Fpex
