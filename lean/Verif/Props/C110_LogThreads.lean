import Verif.Model.LogThreads
/-
  C110: messages of several threads.
-/
namespace LM.Log

/-- The calls of one thread in a sequence of calls of all threads. -/
def callsOf (t : Nat) (o : List (Nat × TOp)) : List TOp := (o.filter fun e => e.1 == t).map (·.2)

/-- The thread has made all its calls. -/
def Sys.ended (c : Sys) (t : Nat) : Prop := (c.th t).phase = .idle ∧ (c.th t).prog = []

/-- What a thread has not done yet. -/
def Thread.rest (x : Thread) : List TOp :=
  match x.phase with
  | .accepted op => op :: x.prog
  | _ => x.prog

/-- What the holder of the lock has yet to write. -/
def Sys.pending (c : Sys) : Text :=
  match c.owner with
  | none => []
  | some t => match (c.th t).phase with
    | .writing p => p
    | _ => []

def notSet : TOp → Prop
  | .setSeverity _ => False
  | _ => True

theorem ctxLog_out (s : St) (c : Ctx) (l sv : Int) (h m : Text) : ∃ w, (ctxLog s c l sv h m).out = s.out ++ w := by
  unfold ctxLog
  split
  · exact ⟨[], by simp⟩
  · split
    · dsimp only
      split <;> exact ⟨_, rfl⟩
    · split <;> exact ⟨_, rfl⟩

theorem inside_out (s : St) (x : Ctx) (op : TOp) : (inside s x op).out = s.out ++ (inside s x op).out.drop s.out.length := by
  have : ∃ w, (inside s x op).out = s.out ++ w := by
    cases op with
    | log l sv h m => exact ctxLog_out _ _ _ _ _ _
    | _ => exact ⟨[], by simp [inside]⟩
  obtain ⟨w, hw⟩ := this
  rw [hw]; simp

theorem ctxLog_ctx (s : St) (c : Ctx) (l sv : Int) (h m : Text) : (ctxLog s c l sv h m).ctx = s.ctx := by
  unfold ctxLog
  split
  · rfl
  · split
    · dsimp only
      split <;> rfl
    · split <;> rfl

/-- The message passes. -/
def Passes (sev : Int) : TOp → Prop
  | .log _ sv _ _ => ¬ sev > sv
  | .indent _ => True
  | .setSeverity _ => False

theorem inside_step (dflt : Int) {s : St} {x : Ctx} (hs : s.ctx = some x) {op : TOp} (hp : Passes x.severity op) : inside s x op = step dflt s op.toOp := by
  cases op with
  | log l sv h m =>
    have hp : ¬ x.severity > sv := hp
    simp only [inside, TOp.toOp, step, hs]
    unfold ctxLog
    rw [if_neg hp, if_neg (show ¬ sv > sv by omega)]
    rfl
  | indent n => simp [inside, TOp.toOp, step, hs]
  | setSeverity n => exact hp.elim

theorem inside_sev {s : St} {x : Ctx} (hs : s.ctx = some x) (op : TOp) : (inside s x op).ctx.map (·.severity) = some x.severity := by
  cases op with
  | log l sv h m => simp [inside, ctxLog_ctx, hs]
  | indent n => simp only [inside, ctxIndent]; split <;> rfl
  | setSeverity n => simp [inside, hs]

/-- What holds at every moment, if no thread calls set_severity. -/
structure Inv (dflt sev : Int) (s0 : St) (P : Nat → List TOp) (c : Sys) : Prop where
  level : c.s.ctx.map (·.severity) = some sev
  calls : ∀ t, callsOf t c.ord ++ (c.th t).rest = P t
  effect : { c.s with out := c.s.out ++ c.pending } = (c.ord.map fun e => e.2.toOp).foldl (Log.step dflt) s0
  owner : ∀ t, c.owner = some t ↔ ∃ p, (c.th t).phase = .writing p
  accepted : ∀ t op, (c.th t).phase = .accepted op → Passes sev op
  locked : ∀ t p, (c.th t).phase ≠ .unlocked p

theorem callsOf_append (t t' : Nat) (o : List (Nat × TOp)) (op : TOp) : callsOf t (o ++ [(t', op)]) = callsOf t o ++ if t' = t then [op] else [] := by
  unfold callsOf
  rw [List.filter_append, List.map_append]
  congr 1
  by_cases h : t' = t <;> simp [h]

theorem pending_set {c : Sys} {t : Nat} {x : Thread} {s : St} {o : List (Nat × TOp)} (ht : ∀ p, (c.th t).phase ≠ .writing p) (hx : ∀ p, x.phase ≠ .writing p) : Sys.pending ⟨s, c.owner, c.set t x, o⟩ = c.pending := by
  unfold Sys.pending
  dsimp only
  cases c.owner with
  | none => rfl
  | some t' =>
    dsimp only
    by_cases h : t' = t
    · subst h
      simp only [Sys.set, if_true]
    · simp only [Sys.set, if_neg h]

theorem Inv.step {dflt sev : Int} {s0 : St} {P : Nat → List TOp} (hP : ∀ t, ∀ op ∈ P t, notSet op) {c c' : Sys} (h : Inv dflt sev s0 P c) {t : Nat} (hc : c.step t = some c') : Inv dflt sev s0 P c' := by
  obtain ⟨x, hx, hsev⟩ : ∃ x, c.s.ctx = some x ∧ x.severity = sev := by
    have := h.level
    cases hcx : c.s.ctx with
    | none => rw [hcx] at this; cases this
    | some x => rw [hcx] at this; exact ⟨x, rfl, Option.some.inj this⟩
  have hcalls := h.calls
  have hrest : ∀ op ∈ (c.th t).rest, notSet op := fun op ho => hP t op (by rw [← h.calls t]; exact List.mem_append_right _ ho)
  have hacc := h.accepted
  -- steps outside of the lock
  have out : ∀ (y : Thread) (o : List (Nat × TOp)), (∀ p, (c.th t).phase ≠ .writing p) → (∀ p, y.phase ≠ .writing p) → (∀ p, y.phase ≠ .unlocked p) → (∀ op, y.phase = .accepted op → Passes sev op) →
      callsOf t o ++ y.rest = P t → (∀ t', t' ≠ t → callsOf t' o = callsOf t' c.ord) → (o.map fun e => e.2.toOp).foldl (Log.step dflt) s0 = (c.ord.map fun e => e.2.toOp).foldl (Log.step dflt) s0 → Inv dflt sev s0 P { c with th := c.set t y, ord := o } := by
    intro y o h1 h2 h3 h4 h5 h6 h7
    refine ⟨h.level, fun t' => ?_, ?_, fun t' => ?_, fun t' op => ?_, fun t' p => ?_⟩
    · by_cases e : t' = t
      · subst e; simpa [Sys.set] using h5
      · simp only [Sys.set, if_neg e]; rw [h6 t' e]; exact h.calls t'
    · have := pending_set (c := c) (t := t) (x := y) (s := c.s) (o := o) h1 h2
      show { c.s with out := c.s.out ++ Sys.pending ⟨c.s, c.owner, c.set t y, o⟩ } = _
      rw [this, h7]; exact h.effect
    · by_cases e : t' = t
      · subst e
        simp only [Sys.set, if_true]
        exact ⟨fun ho => absurd ((h.owner t').mp ho) (fun ⟨p, hp⟩ => h1 p hp), fun ⟨p, hp⟩ => absurd hp (h2 p)⟩
      · simp only [Sys.set, if_neg e]; exact h.owner t'
    · by_cases e : t' = t
      · subst e; simpa [Sys.set] using h4 op
      · simp only [Sys.set, if_neg e]; exact h.accepted t' op
    · by_cases e : t' = t
      · subst e; simpa [Sys.set] using h3 p
      · simp only [Sys.set, if_neg e]; exact h.locked t' p
  have hct := hcalls t
  unfold Sys.step at hc
  rcases hph : (c.th t).phase with _ | op | (_ | ⟨ch, p⟩) | p
  rcases hpr : (c.th t).prog with _ | ⟨(⟨l, sv, hd, m⟩ | n | n), r⟩
  all_goals (first | rw [hph, hpr] at hc | rw [hph] at hc)
  all_goals dsimp only at hc
  · cases hc
  rotate_left
  · rw [hx] at hc
    cases hc
    refine out _ c.ord (by simp [hph]) (by simp) (by simp) (fun op ho => ?_) ?_ (fun _ _ => rfl) rfl
    · cases ho; exact trivial
    · rw [← hct]; simp [Thread.rest, hph, hpr]
  · have := hrest (.setSeverity n) (by simp [Thread.rest, hph, hpr])
    exact this.elim
  · rw [hx] at hc
    split at hc
    · rename_i x' hown hx'
      cases hx'
      cases hc
      have hpass := hacc t op hph
      rw [← hsev] at hpass
      have hpend : c.pending = [] := by simp [Sys.pending, hown]
      have heff := h.effect
      rw [hpend, List.append_nil] at heff
      have heff : c.s = _ := heff
      refine ⟨?_, fun t' => ?_, ?_, fun t' => ?_, fun t' op' => ?_, fun t' p => ?_⟩
      · show (inside c.s x op).ctx.map _ = _
        rw [inside_sev hx, hsev]
      · by_cases e : t' = t
        · subst e
          simp only [Sys.set, if_true, callsOf_append]
          rw [← hct]; simp [Thread.rest, hph]
        · simp only [Sys.set, if_neg e, callsOf_append, if_neg (Ne.symm e), List.append_nil]; exact h.calls t'
      · simp only [Sys.pending, Sys.set, if_true]
        rw [List.map_append, List.foldl_append, ← heff, ← inside_out]
        exact inside_step dflt hx hpass
      · by_cases e : t' = t
        · subst e; simp [Sys.set]
        · simp only [Sys.set, if_neg e]
          refine ⟨fun ho => absurd (Option.some.inj ho).symm e, fun hp => ?_⟩
          have := (h.owner t').mpr hp
          rw [hown] at this; cases this
      · by_cases e : t' = t
        · subst e; simp [Sys.set]
        · simp only [Sys.set, if_neg e]; exact h.accepted t' op'
      · by_cases e : t' = t
        · subst e; simp [Sys.set]
        · simp only [Sys.set, if_neg e]; exact h.locked t' p
    · cases hc
  · cases hc
    have hown := (h.owner t).mpr ⟨_, hph⟩
    refine ⟨h.level, fun t' => ?_, ?_, fun t' => ?_, fun t' op' => ?_, fun t' p => ?_⟩
    · by_cases e : t' = t
      · subst e; rw [← hct]; simp [Sys.set, Thread.rest, hph]
      · simp only [Sys.set, if_neg e]; exact h.calls t'
    · have : c.pending = [] := by simp [Sys.pending, hown, hph]
      rw [← h.effect, this]; rfl
    · by_cases e : t' = t
      · subst e; simp [Sys.set]
      · simp only [Sys.set, if_neg e]
        refine ⟨fun ho => (by cases ho), fun hp => ?_⟩
        have := (h.owner t').mpr hp
        rw [hown] at this; exact absurd (Option.some.inj this).symm e
    · by_cases e : t' = t
      · subst e; simp [Sys.set]
      · simp only [Sys.set, if_neg e]; exact h.accepted t' op'
    · by_cases e : t' = t
      · subst e; simp [Sys.set]
      · simp only [Sys.set, if_neg e]; exact h.locked t' p
  · cases hc
    have hown := (h.owner t).mpr ⟨_, hph⟩
    refine ⟨h.level, fun t' => ?_, ?_, fun t' => ?_, fun t' op' => ?_, fun t' p => ?_⟩
    · by_cases e : t' = t
      · subst e; rw [← hct]; simp [Sys.set, Thread.rest, hph]
      · simp only [Sys.set, if_neg e]; exact h.calls t'
    · have e1 : c.pending = ch :: p := by simp [Sys.pending, hown, hph]
      rw [← h.effect, e1]
      simp [Sys.pending, hown, Sys.set]
    · by_cases e : t' = t
      · subst e; simp [Sys.set, hown]
      · simp only [Sys.set, if_neg e]; exact h.owner t'
    · by_cases e : t' = t
      · subst e; simp [Sys.set]
      · simp only [Sys.set, if_neg e]; exact h.accepted t' op'
    · by_cases e : t' = t
      · subst e; simp [Sys.set]
      · simp only [Sys.set, if_neg e]; exact h.locked t' p
  · exact absurd hph (h.locked t _)
  · rw [hx] at hc
    dsimp only at hc
    split at hc
    · rename_i hlt
      cases hc
      refine out _ _ (by simp [hph]) (by simp) (by simp) (by simp) ?_ (fun t' ht' => ?_) ?_
      · rw [callsOf_append, if_pos rfl, ← hct]; simp [Thread.rest, hph, hpr]
      · rw [callsOf_append, if_neg (Ne.symm ht')]; simp
      · rw [List.map_append, List.foldl_append, ← h.effect]
        simp [TOp.toOp, Log.step, hx, ctxLog, hlt]
    · rename_i hlt
      cases hc
      refine out _ c.ord (by simp [hph]) (by simp) (by simp) (fun op ho => ?_) ?_ (fun _ _ => rfl) rfl
      · cases ho; rw [← hsev]; exact hlt
      · rw [← hct]; simp [Thread.rest, hph, hpr]

theorem Inv.run {dflt sev : Int} {s0 : St} {P : Nat → List TOp} (hP : ∀ t, ∀ op ∈ P t, notSet op) (σ : List Nat) : ∀ {c : Sys}, Inv dflt sev s0 P c → Inv dflt sev s0 P (c.run σ) := by
  induction σ with
  | nil => exact fun h => h
  | cons t σ ih =>
    intro c h
    refine ih ?_
    cases hc : c.step t with
    | none => exact h
    | some c' => exact h.step hP hc

theorem Inv.start {dflt : Int} {s0 : St} {x : Ctx} (hx : s0.ctx = some x) (P : Nat → List TOp) : Inv dflt x.severity s0 P (start s0 P) :=
  ⟨by simp [Log.start, hx], fun t => by simp [Log.start, Thread.rest, callsOf], by simp [Log.start, Sys.pending], fun t => by simp [Log.start], fun t op h => (by cases h), fun t p h => (by cases h)⟩

/-- C110. Any number of threads log messages and change the indentation, under every schedule: when they have ended, there is one order of all calls, which contains the calls of every thread in its order, such that what has been printed and the state of the logger are as if the calls had been made
    in this order, one after another. So every message that passes the filter is printed completely, once, and no other text is between its characters and lines.
    Missing: threads that call set_severity (`C110_negation_severity`), and the time before the initialisation (`C110_negation_fallback`). -/
theorem C110_whole_partial (dflt : Int) (s0 : St) (x : Ctx) (hx : s0.ctx = some x) (P : Nat → List TOp) (hP : ∀ t, ∀ op ∈ P t, notSet op) (σ : List Nat) (hend : ∀ t, ((start s0 P).run σ).ended t) :
    ∃ o : List (Nat × TOp), (∀ t, callsOf t o = P t) ∧ ((start s0 P).run σ).s = (o.map fun e => e.2.toOp).foldl (step dflt) s0 := by
  have h := Inv.run hP σ (Inv.start (dflt := dflt) hx P)
  refine ⟨((start s0 P).run σ).ord, fun t => ?_, ?_⟩
  · have := h.calls t
    rwa [Thread.rest, (hend t).1, (hend t).2, List.append_nil] at this
  · have hp : ((start s0 P).run σ).pending = [] := by
      unfold Sys.pending
      cases ((start s0 P).run σ).owner with
      | none => rfl
      | some t => simp [(hend t).1]
    have := h.effect
    rwa [hp, List.append_nil] at this

/-- C110. No schedule leads to a deadlock: as long as a thread has not ended, some thread can go on. Missing: as for `C110_whole_partial`. -/
theorem C110_progress_partial (s0 : St) (x : Ctx) (hx : s0.ctx = some x) (P : Nat → List TOp) (hP : ∀ t, ∀ op ∈ P t, notSet op) (σ : List Nat) (t : Nat) (ht : ¬ ((start s0 P).run σ).ended t) : ∃ t', (((start s0 P).run σ).step t').isSome := by
  have h := Inv.run hP σ (Inv.start (dflt := 0) hx P)
  generalize (start s0 P).run σ = c at h ht
  cases ho : c.owner with
  | some t' =>
    obtain ⟨p, hp⟩ := (h.owner t').mp ho
    refine ⟨t', ?_⟩
    unfold Sys.step
    cases p <;> simp [hp]
  | none =>
    refine ⟨t, ?_⟩
    have hctx := h.level
    unfold Sys.step
    cases hph : (c.th t).phase with
    | idle =>
      cases hpr : (c.th t).prog with
      | nil => exact absurd ⟨hph, hpr⟩ ht
      | cons op r =>
        cases op with
        | log l sv hd m => cases c.s.ctx with
          | none => simp
          | some x => dsimp only; split <;> rfl
        | indent n => cases c.s.ctx <;> simp
        | setSeverity n => simp
    | accepted op =>
      cases hcx : c.s.ctx with
      | none => rw [hcx] at hctx; cases hctx
      | some x => simp [ho]
    | writing p => cases p <;> simp
    | unlocked p => cases p <;> simp

/-- C110. Without set_severity there is no data race. Missing: as for `C110_whole_partial`. -/
theorem C110_no_race_partial (s0 : St) (x : Ctx) (hx : s0.ctx = some x) (P : Nat → List TOp) (hP : ∀ t, ∀ op ∈ P t, notSet op) (σ : List Nat) : ¬ ((start s0 P).run σ).Racy := by
  have h := Inv.run hP σ (Inv.start (dflt := 0) hx P)
  rintro ⟨t, _, _, hw, _⟩
  unfold Sys.writes at hw
  split at hw
  · rename_i n r hph hpr
    exact hP t (.setSeverity n) (by rw [← h.calls t]; simp [Thread.rest, hph, hpr])
  · cases hw

/-- C110, violated by set_severity. A thread that calls it while another thread logs a message: a data race on the threshold. -/
theorem C110_negation_severity (s0 : St) (x : Ctx) (hx : s0.ctx = some x) (n l sv : Int) (h m : Text) : ((start s0 fun t => if t = 0 then [.setSeverity n] else if t = 1 then [.log l sv h m] else []).run []).Racy :=
  ⟨0, 1, by simp, by simp [Sys.run, start, Sys.writes, hx], by simp [Sys.run, start, Sys.touches, hx]⟩

/-- C110, violated before the initialisation, when messages are written without a lock. Two threads print "a" and "b", and both lines are mixed. -/
theorem C110_negation_fallback (l sv : Int) (h : Text) : ∃ σ, let c := (start {} fun t => if t = 0 then [.log l sv h ['a']] else if t = 1 then [.log l sv h ['b']] else []).run σ
    (∀ t, c.ended t) ∧ c.s.out = ['a', 'b', '\n', '\n'] := by
  refine ⟨[0, 1, 0, 1, 0, 1, 0, 1], ?_⟩
  simp only [Sys.run, start, Sys.step]
  refine ⟨fun t => ?_, by simp [Sys.set]⟩
  by_cases h0 : t = 0
  · subst h0; simp [Sys.ended, Sys.set]
  · by_cases h1 : t = 1
    · subst h1; simp [Sys.ended, Sys.set]
    · simp [Sys.ended, Sys.set, h0, h1]

/-! ### A concrete case -/

def exProg : Nat → List TOp
  | 0 => [.log 10 0 ['>'] ['a', '\n', 'b'], .indent 1]
  | 1 => [.log 10 (-5) ['>'] ['x'], .log 10 5 ['>'] ['c']]
  | _ => []

theorem exProg_notSet : ∀ t, ∀ op ∈ exProg t, notSet op := by
  intro t op ho
  unfold exProg at ho
  split at ho
  · simp at ho; rcases ho with rfl | rfl <;> exact trivial
  · simp at ho; rcases ho with rfl | rfl <;> exact trivial
  · cases ho

/-- Thread 1 is interrupted after it passed the filter, and prints after thread 0 has. -/
def exSchedule : List Nat := [0, 1, 1, 0, 1, 0, 0, 1, 0, 0, 0, 0, 0, 1, 0, 1, 1, 0, 1, 1, 0, 0, 1, 1, 1, 1, 1]

example : ((start { ctx := some { severity := 0 } } exProg).run exSchedule).s.out = ['>', 'a', '\n', '>', 'b', '\n', '>', 'c', '\n'] := by decide

theorem exEnded (t : Nat) : ((start { ctx := some { severity := 0 } } exProg).run exSchedule).ended t := by
  rcases t with _ | _ | t
  · exact ⟨rfl, rfl⟩
  · exact ⟨rfl, rfl⟩
  · exact ⟨rfl, rfl⟩

example : ∃ o, (∀ t, callsOf t o = exProg t) ∧ ((start { ctx := some { severity := 0 } } exProg).run exSchedule).s = (o.map fun e => e.2.toOp).foldl (step 0) { ctx := some { severity := 0 } } :=
  C110_whole_partial 0 _ _ rfl exProg exProg_notSet exSchedule exEnded

/-- In the middle of a schedule. -/
example : ∃ t', (((start { ctx := some { severity := 0 } } exProg).run [0, 1, 1, 0]).step t').isSome := C110_progress_partial _ _ rfl exProg exProg_notSet [0, 1, 1, 0] 1 fun h => by cases h.1

end LM.Log
