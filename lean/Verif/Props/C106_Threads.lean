import Verif.Model.Threads
import Mathlib.Tactic.Linarith
import Mathlib.Tactic.Ring
/-
  C106: the number of threads and the identifiers of threads in parallel loops.
-/
namespace LM.Threads

/-- The calls of the library are in progress at these places, in the callbacks of loops. -/
def Callback (s : St) (p : Place) : Prop := p.path ≠ [] ∧ Running s p

theorem toInt_small {n : Int} (h1 : -2147483648 ≤ n) (h2 : n < 2147483648) : toInt (toUnsigned n) = n := by
  unfold toInt toUnsigned; omega

/-- C106. The number of threads: num_threads() is the configured number if it is positive; otherwise the configured number is added to the number of the machine's hardware threads, so that -1 leaves one of them free; without the
    property it is the number of hardware threads. -/
theorem C106_configured (hw : Nat) (hhw : hw < 2147483648) :
    numThreads hw none = hw ∧
    (∀ n : Int, 0 < n → n < 2147483648 → numThreads hw (some n) = n) ∧
    ∀ n : Int, -2147483648 ≤ n → n ≤ 0 → numThreads hw (some n) = hw + n := by
  refine ⟨?_, fun n h0 h1 => ?_, fun n h1 h0 => ?_⟩
  · unfold numThreads
    have : toInt (toUnsigned (hw : Int)) = hw := toInt_small (by omega) (by omega)
    simp only [this]
    split
    · have : hw = 0 := by omega
      subst this; rfl
    · rfl
  · unfold numThreads
    simp only [toInt_small (by omega) h1]
    rw [if_neg (by omega)]
  · unfold numThreads
    simp only [toInt_small h1 (by omega)]
    rw [if_pos h0]
    unfold toInt toUnsigned; omega

example : numThreads 8 (some (-1)) = 7 ∧ numThreads 8 (some 3) = 3 ∧ numThreads 8 none = 8 := by decide

/-- The number for loops of the thread that made the context is that of the context. -/
theorem icv_num {hw : Nat} {odd : Int → Nat} {dflt : Nat} {as : List Act} {s : St} (h : Run hw odd (init dflt) as s) {t : Nat} {n : Int} (hb : s.by_ = some t) (hn : s.num = some n) (h0 : 0 < n) : (s.icv t : Int) = n := by
  generalize e : init dflt = s0 at h
  induction h with
  | nil => subst e; cases hb
  | snoc s' s'' as a _ hs ih =>
    cases hs with
    | init t' prop _ =>
      cases hb; cases hn
      simp only [if_true, if_pos h0]
      omega
    | outer _ k _ _ _ _ => exact ih hb hn
    | inner _ i rest _ _ _ => exact ih hb hn
    | fin p k _ _ => exact ih hb hn

/-- C106. Thread identifiers: after any history, in a loop started on the thread of the system that made the current context, and in loops started inside of loops, every callback gets a thread identifier in 0 ... num_threads()-1,
    if num_threads() is positive. Missing: loops started on other threads of the system (`C106_negation_other_thread`) and configurations that leave no thread (`C106_negation_none_left`). -/
theorem C106_identifiers_partial {hw : Nat} {odd : Int → Nat} {dflt : Nat} {as : List Act} {s s' : St} (h : Run hw odd (init dflt) as s) {p : Place} {k : Nat} (hs : Step hw odd s (.begin p k) s') {n : Int} (hn : s.num = some n)
    (h0 : 0 < n) (hp : p.path ≠ [] ∨ s.by_ = some p.thread) (i : Nat) (hi : Running s' ⟨p.thread, i :: p.path⟩) : (threadNum ⟨p.thread, i :: p.path⟩ : Int) < n := by
  show (i : Int) < n
  cases hs with
  | outer t _ _ _ _ hk =>
    rcases hp with hp | hb
    · exact absurd rfl hp
    · obtain ⟨k', e, hi⟩ := hi
      simp only [if_true, Option.some.injEq] at e
      have := icv_num h hb hn h0
      dsimp only at this
      omega
  | inner t j rest _ _ _ =>
    obtain ⟨k', e, hi⟩ := hi
    simp only [if_true, Option.some.injEq] at e
    omega

/-- C106. A loop always has the thread 0, so that the callback is called (see C13). -/
theorem C106_some_thread {hw : Nat} {odd : Int → Nat} {s s' : St} {p : Place} {k : Nat} (hs : Step hw odd s (.begin p k) s') : Running s' ⟨p.thread, 0 :: p.path⟩ := by
  cases hs with
  | outer t _ _ _ h1 _ => exact ⟨k, if_pos rfl, h1⟩
  | inner t j rest _ _ _ => exact ⟨1, if_pos rfl, one_pos⟩

/-- C106, negation. Loops started on another thread of the system have other identifiers: after parallel::init with num_threads = 1 on one thread, a loop on another thread, on a machine with at least two threads by default, calls
    back with the identifier 1, although num_threads() is 1. The number is set for the calling thread only. -/
theorem C106_negation_other_thread (hw : Nat) (odd : Int → Nat) (dflt : Nat) (hd : 2 ≤ dflt) :
    ∃ as s p, Run hw odd (init dflt) as s ∧ s.num = some 1 ∧ Callback s p ∧ threadNum p = 1 := by
  have hN : numThreads hw (some 1) = 1 := rfl
  have r1 := Run.snoc (hw := hw) (odd := odd) _ _ _ _ _ (Run.nil (init dflt)) (Step.init _ 0 (some 1) rfl)
  have r2 := Run.snoc _ _ _ _ _ r1 (Step.outer _ 1 2 rfl rfl one_le_two (by simpa [init] using hd))
  exact ⟨_, _, ⟨1, [1]⟩, r2, congrArg some hN, ⟨nofun, 2, by simp, by decide⟩, rfl⟩

/-- C106, negation. A configuration that leaves no thread is accepted: on a machine with m hardware threads, every number from -m downwards makes num_threads() zero or negative, and a loop still calls back, with the identifier 0.
    The number -1 of the project's example does this on a machine with one hardware thread. -/
theorem C106_negation_none_left (hw : Nat) (hhw : hw < 2147483648) (odd : Int → Nat) (hodd : ∀ n, 1 ≤ odd n) (dflt : Nat) (n : Int) (h1 : -2147483648 ≤ n) (hn : n ≤ -hw) :
    ∃ as s p, Run hw odd (init dflt) as s ∧ s.num = some (hw + n) ∧ (hw : Int) + n ≤ 0 ∧ Callback s p ∧ threadNum p = 0 := by
  have hN : numThreads hw (some n) = hw + n := (C106_configured hw hhw).2.2 n h1 (by omega)
  have r1 := Run.snoc (hw := hw) (odd := odd) _ _ _ _ _ (Run.nil (init dflt)) (Step.init _ 0 (some n) rfl)
  have r2 := Run.snoc _ _ _ _ _ r1 (Step.outer _ 0 1 rfl rfl le_rfl (by
    simp only [if_true]
    rw [if_neg (by omega)]
    exact hodd _))
  exact ⟨_, _, ⟨0, [0]⟩, r2, congrArg some hN, by omega, ⟨nofun, 1, by simp, by decide⟩, rfl⟩

/-! ### Identifiers identify -/

/-- The history starts loops only on thread t, and none inside of loops. -/
def Plain (t : Nat) (a : Act) : Prop :=
  match a with
  | .begin p _ => p = ⟨t, []⟩
  | _ => True

theorem plain_team {hw : Nat} {odd : Int → Nat} {dflt : Nat} {as : List Act} {s : St} (h : Run hw odd (init dflt) as s) {t : Nat} (hp : ∀ a ∈ as, Plain t a) {p : Place} {k : Nat} (ht : s.team p = some k) : p = ⟨t, []⟩ := by
  generalize e : init dflt = s0 at h
  induction h generalizing k with
  | nil => subst e; cases ht
  | snoc s' s'' as a _ hs ih =>
    have ih := @ih (fun a ha => hp a (List.mem_append_left _ ha))
    have ha : Plain t a := hp a (by simp)
    cases hs with
    | init t' prop _ => exact ih ht
    | outer t' k' _ _ _ _ =>
      dsimp only at ht
      split at ht
      · rename_i e'; rw [e']; exact ha
      · exact ih ht
    | inner t' i rest _ _ _ =>
      dsimp only at ht
      split at ht
      · rename_i e'; rw [e']; exact ha
      · exact ih ht
    | fin q k' _ _ =>
      dsimp only at ht
      split at ht
      · cases ht
      · exact ih ht

/-- C106. Identifiers tell threads apart: if all loops are started on one thread of the system and none inside of another, two callbacks that are in progress at the same time have different identifiers, so that data indexed by
    the identifier is used by one thread at a time. Missing: loops inside of loops (`C106_negation_nested`) and loops of several threads of the system (`C106_negation_two_loops`). -/
theorem C106_distinct_partial {hw : Nat} {odd : Int → Nat} {dflt : Nat} {as : List Act} {s : St} (h : Run hw odd (init dflt) as s) (t : Nat) (hp : ∀ a ∈ as, Plain t a) (p q : Place) (h1 : Callback s p) (h2 : Callback s q)
    (he : threadNum p = threadNum q) : p = q := by
  obtain ⟨t1, p1⟩ := p
  obtain ⟨t2, p2⟩ := q
  cases p1 with
  | nil => exact absurd rfl h1.1
  | cons i r1 =>
    cases p2 with
    | nil => exact absurd rfl h2.1
    | cons j r2 =>
      obtain ⟨k1, e1, _⟩ := h1.2
      obtain ⟨k2, e2, _⟩ := h2.2
      cases plain_team h hp e1
      cases plain_team h hp e2
      cases (show i = j from he)
      rfl

/-- C106, negation. In loops inside of loops the callbacks of all threads have the identifier 0: two of them are in progress at the same time. -/
theorem C106_negation_nested (hw : Nat) (odd : Int → Nat) (dflt : Nat) :
    ∃ as s p q, Run hw odd (init dflt) as s ∧ p ≠ q ∧ p.thread = q.thread ∧ p.path.length = 2 ∧ q.path.length = 2 ∧ Callback s p ∧ Callback s q ∧ threadNum p = threadNum q := by
  have r1 := Run.snoc (hw := hw) (odd := odd) _ _ _ _ _ (Run.nil (init dflt)) (Step.init _ 0 (some 2) rfl)
  have r2 := Run.snoc _ _ _ _ _ r1 (Step.outer _ 0 2 rfl rfl one_le_two (by
    have : numThreads hw (some 2) = 2 := rfl
    simp [this]))
  have r3 := Run.snoc _ _ _ _ _ r2 (Step.inner _ 0 0 [] rfl ⟨2, by simp, by decide⟩ (by simp [init]))
  have r4 := Run.snoc _ _ _ _ _ r3 (Step.inner _ 0 1 [] rfl ⟨2, by simp, by decide⟩ (by simp [init]))
  exact ⟨_, _, ⟨0, [0, 0]⟩, ⟨0, [0, 1]⟩, r4, by simp, rfl, rfl, rfl, ⟨nofun, 1, by simp, by decide⟩, ⟨nofun, 1, by simp, by decide⟩, rfl⟩

/-- C106, negation. Loops of two threads of the system at the same time use the same identifiers. -/
theorem C106_negation_two_loops (hw : Nat) (odd : Int → Nat) (dflt : Nat) (hd : 1 ≤ dflt) :
    ∃ as s p q, Run hw odd (init dflt) as s ∧ p.thread ≠ q.thread ∧ Callback s p ∧ Callback s q ∧ threadNum p = threadNum q := by
  have r1 := Run.snoc (hw := hw) (odd := odd) _ _ _ _ _ (Run.nil (init dflt)) (Step.init _ 0 (some 1) rfl)
  have r2 := Run.snoc _ _ _ _ _ r1 (Step.outer _ 0 1 rfl rfl le_rfl (by
    have : numThreads hw (some 1) = 1 := rfl
    simp [this]))
  have r3 := Run.snoc _ _ _ _ _ r2 (Step.outer _ 1 1 rfl (by simp [init]) le_rfl (by simpa [init] using hd))
  exact ⟨_, _, ⟨0, [0]⟩, ⟨1, [0]⟩, r3, by simp, ⟨nofun, 1, by simp, by decide⟩, ⟨nofun, 1, by simp, by decide⟩, rfl⟩

/-! ### The main thread -/

/-- C106. main_thread(): under the conditions of `C106_distinct_partial`, with t the main thread of the program, exactly one of the callbacks of a loop in progress answers yes, the one on the main thread itself (the member 0 of the
    team is the thread that started the loop). Missing: as there. -/
theorem C106_main_thread_partial {hw : Nat} {odd : Int → Nat} {dflt : Nat} {as : List Act} {s : St} (h : Run hw odd (init dflt) as s) (hp : ∀ a ∈ as, Plain 0 a) (p : Place) (hc : Callback s p) : mainThread p = true ↔ p = ⟨0, [0]⟩ := by
  obtain ⟨t, path⟩ := p
  cases path with
  | nil => exact absurd rfl hc.1
  | cons i r =>
    obtain ⟨k, e, _⟩ := hc.2
    cases plain_team h hp e
    simp [mainThread, threadNum]

/-- C106, negation. Every thread of the system is the main thread according to main_thread(), as long as it is not in a loop. -/
theorem C106_negation_main_thread (t : Nat) : mainThread ⟨t, []⟩ = true := rfl

/-- A history that meets the hypotheses of the theorems above. -/
theorem exRun (dflt : Nat) : ∃ s s', Run 8 (fun _ => 1) (init dflt) [.init 0 (some (-1))] s ∧ s.num = some 7 ∧ s.by_ = some 0 ∧ Step 8 (fun _ => 1) s (.begin ⟨0, []⟩ 7) s' ∧ Running s' ⟨0, [6]⟩ := by
  have r1 := Run.snoc (hw := 8) (odd := fun _ => 1) _ _ _ _ _ (Run.nil (init dflt)) (Step.init _ 0 (some (-1)) rfl)
  have hN : numThreads 8 (some (-1)) = 7 := by decide
  refine ⟨_, _, r1, congrArg some hN, rfl, Step.outer _ 0 7 rfl rfl (by decide) ?_, 7, by simp, by decide⟩
  simp [hN]

example (dflt : Nat) : ∃ as s, Run 8 (fun _ => 1) (init dflt) as s ∧ (∀ a ∈ as, Plain 0 a) ∧ Callback s ⟨0, [0]⟩ ∧ Callback s ⟨0, [6]⟩ := by
  obtain ⟨s, s', r, _, _, hs, hr⟩ := exRun dflt
  refine ⟨_, s', Run.snoc _ _ _ _ _ r hs, ?_, ⟨nofun, C106_some_thread hs⟩, ⟨nofun, hr⟩⟩
  intro a ha
  rcases List.mem_append.mp ha with ha | ha <;> rw [List.mem_singleton.mp ha] <;> simp [Plain]

end LM.Threads
