import Verif.Model.Context
import Verif.Props.C01_Registry
namespace LM.Context

/-- Spec: the context that should be live after a history: the last init succeeded with instance `i`
    and no init or shutdown came after it. -/
def LiveCtx (h : List Op) (i : Nat) : Prop :=
  ∃ pre post, h = pre ++ .init (.ok i) :: post ∧ ∀ o ∈ post, o = .use

/-- Spec: number of context objects alive after a prefix of the trace. -/
def alive (t : List Event) : Int :=
  (t.map (fun e => match e with | .created _ => (1 : Int) | .destroyed _ => -1)).sum

/-- Spec: how often instance `i` was created / destroyed. -/
def createdCount (i : Nat) (t : List Event) : Nat := t.count (.created i)
def destroyedCount (i : Nat) (t : List Event) : Nat := t.count (.destroyed i)

theorem run_snoc (h : List Op) (o : Op) : run (h ++ [o]) = (step (run h) o).1 := by
  simp [run, List.foldl_append]

theorem liveCtx_snoc (h : List Op) (o : Op) (i : Nat) :
    LiveCtx (h ++ [o]) i ↔ (o = .init (.ok i)) ∨ (o = .use ∧ LiveCtx h i) := by
  constructor
  · rintro ⟨pre, post, heq, hpost⟩
    rcases List.eq_nil_or_concat post with rfl | ⟨post', x, rfl⟩
    · have := List.append_inj' heq (by simp)
      left; simpa using this.2
    · rw [List.concat_eq_append, ← List.cons_append, ← List.append_assoc] at heq
      have h2 := List.append_inj' heq (by simp)
      have hx : o = x := by simpa using h2.2
      right
      refine ⟨?_, pre, post', h2.1, fun o ho => hpost o (by simp [ho])⟩
      rw [hx]; exact hpost x (by simp)
  · rintro (rfl | ⟨rfl, pre, post, rfl, hpost⟩)
    · exact ⟨h, [], by simp, by simp⟩
    · refine ⟨pre, post ++ [.use], by simp, ?_⟩
      intro o ho
      rcases List.mem_append.mp ho with ho | ho
      · exact hpost o ho
      · simpa using ho

theorem ctx_run (h : List Op) (i : Nat) : (run h).ctx = some i ↔ LiveCtx h i := by
  induction h using Registry.snoc_induction with
  | nil => simp [run, St.init, LiveCtx]
  | snoc h o ih =>
    rw [run_snoc, liveCtx_snoc, ← ih]
    cases o with
    | use => simp [step]
    | shutdown =>
      cases hc : (run h).ctx <;> simp [step, shutdown, hc]
    | init c =>
      cases hc : (run h).ctx <;> cases c <;> simp [step, initCtx, assignCreated, shutdown, hc]

/-- C05. Use of a subsystem succeeds exactly when the latest init succeeded and was not followed by shutdown, returning that
    context; in every other history it raises 'uninitialized'. -/
theorem C05_use_iff (h : List Op) :
    (∀ i, (step (run h) .use).2 = .ref i ↔ LiveCtx h i) ∧
    ((step (run h) .use).2 = .uninitialized ↔ ¬ ∃ i, LiveCtx h i) := by
  have key := ctx_run h
  cases hc : (run h).ctx with
  | none =>
    refine ⟨?_, ?_⟩
    · intro i; rw [← key i]; simp [step, get, hc]
    · simp only [← key, hc]; simp [step, get, hc]
  | some j =>
    refine ⟨?_, ?_⟩
    · intro i; rw [← key i]; simp [step, get, hc]
    · simp only [← key, hc]; simp [step, get, hc]

theorem alive_append (t t' : List Event) : alive (t ++ t') = alive t + alive t' := by
  simp [alive]

/-- All prefixes of the trace have 0 or 1 live contexts, and the current context accounts for the final number. -/
def TraceOK (s : St) : Prop :=
  (∀ p, p <+: s.trace → 0 ≤ alive p ∧ alive p ≤ 1) ∧ alive s.trace = (if s.ctx.isSome then 1 else 0)

theorem prefix_snoc {α} {p t : List α} {a : α} (h : p <+: t ++ [a]) : p <+: t ∨ p = t ++ [a] := by
  obtain ⟨r, hr⟩ := h
  rcases List.eq_nil_or_concat r with rfl | ⟨r', x, rfl⟩
  · right; simpa using hr
  · left
    rw [List.concat_eq_append, ← List.append_assoc] at hr
    have := List.append_inj' hr (by simp)
    exact ⟨r', this.1⟩

theorem traceOK_shutdown (s : St) (h : TraceOK s) : TraceOK (shutdown s) ∧ (shutdown s).ctx = none := by
  unfold shutdown
  cases hc : s.ctx with
  | none => exact ⟨h, hc⟩
  | some i =>
    refine ⟨⟨?_, ?_⟩, rfl⟩
    · intro p hp
      rcases prefix_snoc hp with hp | rfl
      · exact h.1 p hp
      · rw [alive_append, h.2, hc]; simp [alive]
    · rw [alive_append, h.2, hc]; simp [alive]

theorem traceOK_step (s : St) (o : Op) (h : TraceOK s) : TraceOK (step s o).1 := by
  cases o with
  | use => exact h
  | shutdown => exact (traceOK_shutdown s h).1
  | init c =>
    have hs : TraceOK (if s.ctx.isSome then shutdown s else s) ∧ (if s.ctx.isSome then shutdown s else s).ctx = none := by
      cases hc : s.ctx with
      | none => exact ⟨h, hc⟩
      | some i => exact traceOK_shutdown s h
    simp only [step, initCtx]
    generalize (if s.ctx.isSome then shutdown s else s) = s' at hs
    obtain ⟨⟨hp, ha⟩, hc⟩ := hs
    rw [hc] at ha
    cases c with
    | null => exact ⟨hp, by simpa [assignCreated] using ha⟩
    | throws i =>
      refine ⟨?_, ?_⟩
      · intro p hpp
        have e : s'.trace ++ [Event.created i, .destroyed i] = (s'.trace ++ [.created i]) ++ [.destroyed i] := by simp
        simp only [assignCreated] at hpp
        rw [e] at hpp
        rcases prefix_snoc hpp with hpp | rfl
        · rcases prefix_snoc hpp with hpp | rfl
          · exact hp p hpp
          · rw [alive_append, ha]; simp [alive]
        · rw [alive_append, alive_append, ha]; simp [alive]
      · simp only [assignCreated, alive_append, ha, hc]; simp [alive]
    | ok i =>
      refine ⟨?_, ?_⟩
      · intro p hpp
        rcases prefix_snoc hpp with hpp | rfl
        · exact hp p hpp
        · rw [alive_append, ha]; simp [alive]
      · simp only [assignCreated, alive_append, ha]; simp [alive]

theorem traceOK_run (h : List Op) : TraceOK (run h) := by
  induction h using Registry.snoc_induction with
  | nil =>
    refine ⟨?_, rfl⟩
    intro p hp
    have : p = [] := by simpa [run, St.init] using hp
    subst this; simp [alive]
  | snoc h o ih => rw [run_snoc]; exact traceOK_step _ _ ih

/-- C05. At every moment of every history at most one context of the subsystem is alive: the previous one is released before
    the next is made, also when construction of the next one throws. -/
theorem C05_at_most_one_alive (h : List Op) (p : List Event) (hp : p <+: (run h).trace) : 0 ≤ alive p ∧ alive p ≤ 1 :=
  (traceOK_run h).1 p hp

/-- C05. Every context ever created is released exactly once, except the current one which is not released. -/
theorem C05_released_exactly_once (h : List Op) (i : Nat) :
    createdCount i (run h).trace = destroyedCount i (run h).trace + (if (run h).ctx = some i then 1 else 0) := by
  have hsd : ∀ s : St, createdCount i s.trace = destroyedCount i s.trace + (if s.ctx = some i then 1 else 0) →
      (createdCount i (shutdown s).trace = destroyedCount i (shutdown s).trace) ∧ (shutdown s).ctx = none := by
    intro s hs
    unfold shutdown
    cases hc : s.ctx with
    | none => simp only [hc] at hs ⊢; simpa using hs
    | some j =>
      rw [hc] at hs
      simp only [createdCount, destroyedCount, List.count_append] at hs ⊢
      by_cases hj : j = i
      · subst hj; simp at hs ⊢; omega
      · simp [hj] at hs ⊢; omega
  induction h using Registry.snoc_induction with
  | nil => rfl
  | snoc h o ih =>
    rw [run_snoc]
    generalize run h = s at ih
    cases o with
    | use => exact ih
    | shutdown => have := hsd s ih; simp only [step, this.2]; simpa using this.1
    | init c =>
      have hs : (createdCount i (if s.ctx.isSome then shutdown s else s).trace =
          destroyedCount i (if s.ctx.isSome then shutdown s else s).trace) ∧ (if s.ctx.isSome then shutdown s else s).ctx = none := by
        cases hc : s.ctx with
        | none => rw [hc] at ih; simp only [Option.isSome_none, Bool.false_eq_true, if_false]; exact ⟨by simpa using ih, hc⟩
        | some j => exact hsd s ih
      have key : ∀ s' : St, createdCount i s'.trace = destroyedCount i s'.trace ∧ s'.ctx = none →
          createdCount i (assignCreated s' c).1.trace = destroyedCount i (assignCreated s' c).1.trace +
            (if (assignCreated s' c).1.ctx = some i then 1 else 0) := by
        intro s' hs
        simp only [createdCount, destroyedCount] at hs ⊢
        cases c with
        | null => simpa [assignCreated] using hs.1
        | throws j =>
          simp only [assignCreated, List.count_append, hs.2]
          by_cases hj : j = i
          · subst hj; simp; omega
          · simp [hj]; omega
        | ok j =>
          simp only [assignCreated, List.count_append]
          by_cases hj : j = i
          · subst hj; simp; omega
          · simp [hj]; omega
      exact key _ hs

/-- C05. After an init whose creation fails (unknown type) or whose construct throws, use is rejected. -/
theorem C05_failed_init (h : List Op) (c : Create) (hc : ∀ i, c ≠ .ok i) :
    (step (run (h ++ [.init c])) .use).2 = .uninitialized := by
  rw [(C05_use_iff _).2]
  rintro ⟨i, hi⟩
  rw [liveCtx_snoc] at hi
  rcases hi with hi | hi
  · exact hc i (by simpa using hi)
  · cases hi.1

/-- Non-vacuity: a history with a replaced context, a throwing construct and a final live context. -/
example : LiveCtx [.init (.ok 1), .init (.ok 2), .shutdown, .init (.throws 3), .init (.ok 4), .use] 4 :=
  ⟨[.init (.ok 1), .init (.ok 2), .shutdown, .init (.throws 3)], [.use], by decide, by decide⟩

example : (run [.init (.ok 1), .init (.ok 2), .init (.throws 3), .init (.ok 4)]).trace =
    [.created 1, .destroyed 1, .created 2, .destroyed 2, .created 3, .destroyed 3, .created 4] := by decide

end LM.Context

namespace LM.User

/-- Spec: the API is in its initialised phase: some init was not followed by a shutdown. -/
def Active (h : List Op) : Prop := ∃ pre post, h = pre ++ .init :: post ∧ Op.shutdown ∉ post

theorem run_snoc (h : List Op) (o : Op) : run (h ++ [o]) = (step (run h) o).1 := by
  simp [run, List.foldl_append]

theorem active_snoc (h : List Op) (o : Op) : Active (h ++ [o]) ↔ o = .init ∨ (o ≠ .shutdown ∧ Active h) := by
  constructor
  · rintro ⟨pre, post, heq, hpost⟩
    rcases List.eq_nil_or_concat post with rfl | ⟨post', x, rfl⟩
    · have := List.append_inj' heq (by simp)
      left; simpa using this.2
    · rw [List.concat_eq_append, ← List.cons_append, ← List.append_assoc] at heq
      have h2 := List.append_inj' heq (by simp)
      have hx : o = x := by simpa using h2.2
      right
      refine ⟨?_, pre, post', h2.1, fun ho => hpost (by simp [ho])⟩
      rintro rfl; exact hpost (by simp [← hx])
  · rintro (rfl | ⟨hne, pre, post, rfl, hpost⟩)
    · exact ⟨h, [], by simp, by simp⟩
    · refine ⟨pre, post ++ [o], by simp, ?_⟩
      intro ho
      rcases List.mem_append.mp ho with ho | ho
      · exact hpost ho
      · exact hne (List.mem_singleton.mp ho).symm

theorem initialized_run (h : List Op) : (run h).initialized = true ↔ Active h := by
  induction h using Registry.snoc_induction with
  | nil => simp [run, St.init, Active]
  | snoc h o ih =>
    rw [run_snoc, active_snoc, ← ih]
    cases o <;> simp [step, reset]
    · cases hi : (run h).initialized <;> simp [hi]
    · cases hi : (run h).initialized <;> simp [hi]
    · cases hr : (run h).root <;> simp
    · cases hr : (run h).root <;> simp

theorem root_inv (h : List Op) : (run h).initialized = true → (run h).root ≠ none := by
  induction h using Registry.snoc_induction with
  | nil => simp [run, St.init]
  | snoc h o ih =>
    rw [run_snoc]
    cases o <;> simp [step, reset] at *
    · cases hi : (run h).initialized <;> simp [hi]
    · cases hi : (run h).initialized <;> simp_all
    · exact ih
    · cases hr : (run h).root with
      | none => simpa [hr] using ih
      | some x => simp [hr]
    · cases hr : (run h).root with
      | none => simpa [hr] using ih
      | some x => simp

/-- C06. Between init and shutdown no call has undefined behaviour or raises 'uninitialized', and the root asset group exists. -/
theorem C06_active_ok (h : List Op) (ha : Active h) (o : Op) :
    (step (run h) o).2 ≠ .nullDeref ∧ (step (run h) o).2 ≠ .uninitialized ∧ (step (run h) o).2 ≠ .ptr none := by
  have hi : (run h).initialized = true := (initialized_run h).mpr ha
  have hr := root_inv h hi
  cases o <;> simp [step, hi]
  · exact hr
  · cases hh : (run h).root <;> simp_all
  · cases hh : (run h).root <;> simp_all

/-- C06 (partial). Outside init..shutdown, `info` and `shutdown` raise 'uninitialized'.
    Missing: `assets`, `reset`, `save_state_to_file`, `load_state_from_file` do not check, see the negations. -/
theorem C06_inactive_rejects_partial (h : List Op) (ha : ¬ Active h) (o : Op) (ho : o = .info ∨ o = .shutdown) :
    (step (run h) o).2 = .uninitialized := by
  have hi : (run h).initialized = false := by
    cases hh : (run h).initialized with
    | false => rfl
    | true => exact absurd ((initialized_run h).mp hh) ha
  rcases ho with rfl | rfl <;> simp [step, hi]

example : Active [.init, .info, .shutdown, .init, .save] := ⟨[.init, .info, .shutdown], [.save], by decide, by decide⟩
example : ¬ Active [.init, .shutdown, .assets] := by rw [← initialized_run]; decide

/-- Spec: the calls that replace the root asset group. -/
def Replaces : Op → Prop
  | .init | .reset | .load => True
  | _ => False

theorem root_lt (h : List Op) : ∀ r, (run h).root = some r → r < (run h).next := by
  induction h using Registry.snoc_induction with
  | nil => simp [run, St.init]
  | snoc h o ih =>
    rw [run_snoc]
    cases o with
    | init => simp [step, reset]
    | reset => simp [step, reset]
    | shutdown => cases hi : (run h).initialized <;> simpa [step, hi] using ih
    | info => cases hi : (run h).initialized <;> simpa [step, hi] using ih
    | assets => simpa [step] using ih
    | save => cases hr : (run h).root <;> simp_all [step]
    | load => cases hr : (run h).root <;> simp_all [step]

theorem next_le (h h' : List Op) : (run h).next ≤ (run (h ++ h')).next := by
  induction h' using Registry.snoc_induction with
  | nil => simp
  | snoc h' o ih =>
    rw [← List.append_assoc, run_snoc]
    refine Nat.le_trans ih ?_
    generalize run (h ++ h') = s
    cases o with
    | init => simp [step, reset]
    | reset => simp [step, reset]
    | shutdown => cases hi : s.initialized <;> simp [step, hi]
    | info => cases hi : s.initialized <;> simp [step, hi]
    | assets => simp [step]
    | save => cases hr : s.root <;> simp [step, hr]
    | load => cases hr : s.root <;> simp [step, hr]

/-- C06. Between init and shutdown, `assets()` keeps returning the same group until the next init, reset or load, and each of those
    gives a group that was not the root at any earlier moment: pointers handed out before are to groups that no longer exist. -/
theorem C06_root_identity (h : List Op) (o : Op) (ha : Active (h ++ [o])) :
    (¬ Replaces o → (step (run (h ++ [o])) .assets).2 = (step (run h) .assets).2) ∧
    (Replaces o → ∀ pre post, h = pre ++ post → (step (run (h ++ [o])) .assets).2 ≠ (step (run pre) .assets).2) := by
  constructor
  · intro hn
    rw [run_snoc]
    generalize run h = s
    cases o with
    | init => exact absurd trivial hn
    | reset => exact absurd trivial hn
    | load => exact absurd trivial hn
    | shutdown => cases hi : s.initialized <;> simp [step, hi]
    | info => cases hi : s.initialized <;> simp [step, hi]
    | assets => simp [step]
    | save => cases hr : s.root <;> simp [step, hr]
  · intro hr pre post he
    have hroot : (run (h ++ [o])).root = some (run h).next := by
      have ha' := (active_snoc h o).mp ha
      rw [run_snoc]
      cases o with
      | init => rfl
      | reset => rfl
      | load =>
        rcases ha' with ha' | ha'
        · cases ha'
        · have := root_inv h ((initialized_run h).mpr ha'.2)
          cases hh : (run h).root with
          | none => exact absurd hh this
          | some x => simp [step, hh]
      | _ => exact absurd hr (by simp [Replaces])
    simp only [step, hroot, ne_eq, Out.ptr.injEq]
    intro hc
    have h1 := root_lt pre _ hc.symm
    have h2 := next_le pre post
    rw [← he] at h2
    omega

example : Active ([.init, .reset] ++ [Op.load]) ∧ Replaces .load := ⟨⟨[], [.reset, .load], by decide, by decide⟩, trivial⟩

/-- C06, negation (as the code is): saving or loading before init dereferences a null pointer,
    and `assets()` before init returns null instead of raising. -/
theorem C06_negation_uninitialized :
    (step (run []) .save).2 = .nullDeref ∧ (step (run []) .load).2 = .nullDeref ∧ (step (run []) .assets).2 = .ptr none := by decide

/-- C06, negation: after shutdown the calls still operate on the old root group instead of raising. -/
theorem C06_negation_after_shutdown :
    (step (run [.init, .shutdown]) .save).2 = .unit ∧ (step (run [.init, .shutdown]) .assets).2 = .ptr (some 0) := by decide

end LM.User
