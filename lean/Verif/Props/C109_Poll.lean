import Verif.Spec.Poll
/-
  C109: polled values reach the function registered last.
-/
namespace LM.Poll
variable {V : Type} {body : Nat → V → List (Act V)}

theorem latest_append (h : List (Act V)) (a : Act V) : latest (h ++ [a]) = (registers a).elim (latest h) id := by
  unfold latest
  rw [List.filterMap_append]
  cases hr : registers a <;> simp [List.filterMap_cons, hr]

/-- The call that one more action asks for. -/
def adds (l : Option Nat) : Act V → List (Nat × V)
  | .poll v => (l.map fun f => (f, v)).toList
  | _ => []

theorem filterMap_same {α β : Type} {f g : α → Option β} : ∀ l : List α, (∀ x ∈ l, f x = g x) → l.filterMap f = l.filterMap g
  | [], _ => rfl
  | x :: l, h => by rw [List.filterMap_cons, List.filterMap_cons, h x (by simp), filterMap_same l fun y hy => h y (by simp [hy])]

theorem expected_append (h : List (Act V)) (a : Act V) : expected (h ++ [a]) = expected h ++ adds (latest h) a := by
  unfold expected
  rw [List.length_append, List.length_singleton, List.range_succ, List.filterMap_append]
  congr 1
  · refine filterMap_same _ fun i hi => ?_
    have hi := List.mem_range.mp hi
    rw [List.getElem?_append_left hi, List.take_append_of_le_length (by omega)]
  · cases a <;> simp [List.filterMap_cons, adds]
    cases latest h <;> rfl

/-- What holds at every moment. -/
structure Right (s : St V) : Prop where
  slot : s.slot.bind (·.fn) = latest s.trace
  log : s.log = expected s.trace

theorem Right.step {s : St V} (h : Right s) {a : Act V} {c : Option Copy} {n : Nat} {l : List (Nat × V)} (hc : c.bind (·.fn) = (registers a).elim (latest s.trace) id) (hl : l = s.log ++ adds (latest s.trace) a) :
    Right ⟨c, n, l, s.trace ++ [a]⟩ :=
  ⟨by rw [latest_append]; exact hc, by rw [expected_append, ← h.log]; exact hl⟩

theorem Right.exec (k : Nat) : ∀ (fr : Option Nat) (as : List (Act V)) (s s' : St V), Right s → Poll.exec body k fr as s = .done s' → Right s' := by
  induction k with
  | zero => intro fr as s s' _ he; simp [Poll.exec] at he
  | succ k ih =>
    intro fr as s s' h he
    cases as with
    | nil => simp only [Poll.exec, Out.done.injEq] at he; exact he ▸ h
    | cons a as =>
      cases a with
      | reg f =>
        simp only [Poll.exec] at he
        exact ih _ _ _ _ (h.step (by cases f <;> rfl) (by simp [adds])) he
      | regPy f =>
        simp only [Poll.exec] at he
        exact ih _ _ _ _ (h.step (by simp [registers]) (by simp [adds])) he
      | user =>
        simp only [Poll.exec] at he
        exact ih _ _ _ _ (h.step (by simpa [registers] using h.slot) (by simp [adds])) he
      | use =>
        cases fr with
        | none => simp only [Poll.exec] at he; exact ih _ _ _ _ h he
        | some j =>
          simp only [Poll.exec] at he
          split at he
          · exact ih _ _ _ _ h he
          · cases he
      | poll v =>
        simp only [Poll.exec] at he
        split at he
        · rename_i hn
          have hs := h.slot
          rw [hn] at hs
          exact ih _ _ _ _ (h.step (by rw [hn]; exact hs) (by rw [← hs]; simp [adds])) he
        · rename_i c hc
          have hs := h.slot
          rw [hc] at hs
          have hs : c.fn = latest s.trace := hs
          split at he
          · rename_i s1 h1
            refine ih _ _ _ _ (ih _ _ _ _ (h.step ?_ ?_) h1) he
            · rw [hc]; exact hs
            · rw [← hs]; unfold called; cases c.fn <;> simp [adds]
          · rename_i o ho
            exact absurd he (ho s')

/-- C109. Whatever a program and the functions it registers do (functions may poll values and register other functions while they run), if it ends without undefined behaviour, then the functions have been called exactly as they should:
    every polled value was given, in order, to the function registered last at that moment, once, and to no other; also if lm was initialised or shut down in between. `trace` is the sequence of what has been done. -/
theorem C109_latest (k : Nat) (h : List (Act V)) (s : St V) (he : exec body k none h (init V) = .done s) : s.log = expected s.trace :=
  (Right.exec k none h (init V) s ⟨rfl, rfl⟩ he).log

theorem exec_uses (k : Nat) : ∀ (l : List (Act V)) (s : St V) (c : Copy), (∀ a ∈ l, a = .use) → s.slot = some c → l.length < k → exec body k (some c.inst) l s = .done s := by
  induction k with
  | zero => intro _ _ _ _ _ h; omega
  | succ k ih =>
    intro l s c hl hs hk
    cases l with
    | nil => rfl
    | cons a l =>
      obtain rfl := hl a (by simp)
      simp only [exec, hs, Option.map_some, if_true]
      exact ih l s c (fun a ha => hl a (by simp [ha])) hs (by simpa using hk)

theorem quiet_run (hq : ∀ f v, ∀ a ∈ body f v, a = .use) (h : List (Act V)) : ∀ s : St V, (∀ a ∈ h, a ≠ .use) → ∃ N s', (∀ k, N ≤ k → exec body k none h s = .done s') ∧ s'.trace = s.trace ++ h := by
  induction h with
  | nil =>
    intro s _
    refine ⟨1, s, fun k hk => ?_, by simp⟩
    obtain ⟨k, rfl⟩ := Nat.exists_eq_add_of_le' hk
    rfl
  | cons a h ih =>
    intro s hu
    have hu' : ∀ a ∈ h, a ≠ .use := fun a ha => hu a (by simp [ha])
    have go : ∀ s1 : St V, s1.trace = s.trace ++ [a] → ∀ N1, (∀ k, N1 ≤ k → exec body (k + 1) none (a :: h) s = exec body k none h s1) → ∃ N s', (∀ k, N ≤ k → exec body k none (a :: h) s = .done s') ∧ s'.trace = s.trace ++ a :: h := by
      intro s1 ht N1 hN1
      obtain ⟨N, s', h1, h2⟩ := ih s1 hu'
      refine ⟨max N N1 + 1, s', fun k hk => ?_, by rw [h2, ht]; simp⟩
      obtain ⟨k, rfl⟩ := Nat.exists_eq_add_of_le' (show 1 ≤ k by omega)
      rw [hN1 k (by omega), h1 k (by omega)]
    cases a with
    | reg f => exact go (s.put (fun n => f.map fun f => ⟨some f, false, n⟩) (.reg f)) rfl 0 fun k _ => by simp only [exec]
    | regPy f => exact go (s.put (fun n => some ⟨f, true, n⟩) (.regPy f)) rfl 0 fun k _ => by simp only [exec]
    | user => exact go { s with trace := s.trace ++ [.user] } rfl 0 fun k _ => by simp only [exec]
    | use => exact absurd rfl (hu .use (by simp))
    | poll v =>
      cases hc : s.slot with
      | none => exact go { s with trace := s.trace ++ [.poll v] } rfl 0 fun k _ => by simp only [exec, hc]
      | some c =>
        refine go { s with log := s.log ++ called c v, trace := s.trace ++ [.poll v] } rfl ((code body c v).length + 1) fun k hk => ?_
        have := exec_uses (body := body) k (code body c v) { s with log := s.log ++ called c v, trace := s.trace ++ [.poll v] } c (fun a ha => ?_) hc (by omega)
        · simp only [exec, hc]
          simp only [hc] at this
          rw [this]
        · unfold code at ha
          split at ha
          · simpa using ha
          · rename_i f _
            split at ha
            · simp only [List.mem_cons] at ha
              rcases ha with h | h | h
              · exact h
              · exact h
              · exact hq f v a h
            · exact hq f v a ha

/-- C109. If the registered functions do not poll or register themselves, every history of calls ends, with the calls of the functions that the history asks for. -/
theorem C109_history (hq : ∀ f v, ∀ a ∈ body f v, a = .use) (h : List (Act V)) (hu : ∀ a ∈ h, a ≠ .use) : ∃ N, ∀ k, N ≤ k → ∃ s, exec body k none h (init V) = .done s ∧ s.log = expected h := by
  obtain ⟨N, s, h1, h2⟩ := quiet_run hq h (init V) hu
  refine ⟨N, fun k hk => ⟨s, h1 k hk, ?_⟩⟩
  rw [C109_latest k h s (h1 k hk), h2]
  rfl

/-- Reads what it has captured only before it does anything else. -/
def Early (l : List (Act V)) : Prop := ∃ n rest, l = List.replicate n .use ++ rest ∧ Act.use ∉ rest

theorem never_undef (hb : ∀ f v, Early (body f v)) (k : Nat) : ∀ (fr : Option Nat) (as : List (Act V)) (s : St V), (fr = none ∨ Act.use ∉ as ∨ ∃ c, fr = some c.inst ∧ s.slot = some c ∧ Early as) → exec body k fr as s ≠ .undef := by
  induction k with
  | zero => intro fr as s _ he; simp [exec] at he
  | succ k ih =>
    intro fr as s hf
    cases as with
    | nil => simp [exec]
    | cons a as =>
      have hrest : a ≠ .use → fr = none ∨ Act.use ∉ as := fun ha => by
        rcases hf with h | h | ⟨c, _, _, n, rest, he, hr⟩
        · exact .inl h
        · exact .inr fun hm => h (by simp [hm])
        · cases n with
          | zero => right; simp only [List.replicate_zero, List.nil_append] at he; rw [← he] at hr; exact fun hm => hr (by simp [hm])
          | succ n => simp only [List.replicate_succ, List.cons_append, List.cons.injEq] at he; exact absurd he.1 ha
      have go : a ≠ .use → ∀ s', exec body k fr as s' ≠ .undef := fun ha s' => ih _ _ _ ((hrest ha).imp id .inl)
      cases a with
      | reg f => simp only [exec]; exact go (by simp) _
      | regPy f => simp only [exec]; exact go (by simp) _
      | user => simp only [exec]; exact go (by simp) _
      | use =>
        rcases hf with h | h | ⟨c, h1, h2, n, rest, he, hr⟩
        · subst h; simp only [exec]; exact ih _ _ _ (.inl rfl)
        · exact absurd (by simp) h
        · subst h1
          simp only [exec, h2, Option.map_some, if_true]
          refine ih _ _ _ (.inr (.inr ⟨c, rfl, h2, ?_⟩))
          cases n with
          | zero => simp only [List.replicate_zero, List.nil_append] at he; rw [← he] at hr; exact absurd (by simp) hr
          | succ n =>
            simp only [List.replicate_succ, List.cons_append, List.cons.injEq, true_and] at he
            exact ⟨n, rest, he, hr⟩
      | poll v =>
        simp only [exec]
        split
        · exact go (by simp) _
        · rename_i c hc
          split
          · exact go (by simp) _
          · refine ih _ _ _ (.inr (.inr ⟨c, rfl, hc, ?_⟩))
            unfold code
            split
            · exact ⟨1, [], rfl, by simp⟩
            · rename_i f _
              split
              · obtain ⟨n, rest, e, hr⟩ := hb f v
                exact ⟨n + 2, rest, by rw [e]; simp [List.replicate_succ], hr⟩
              · exact hb f v

/-- C109. Functions may register other functions while they run, also in place of themselves, and poll values, if they read what they have captured only before that; there is no undefined behaviour then. This holds for all functions registered from Python, where the wrapper reads
    the function before it calls it. Missing: functions that read what they have captured later, for which it is false (`C109_negation_replaced`). -/
theorem C109_defined_partial (hb : ∀ f v, Early (body f v)) (k : Nat) (h : List (Act V)) : exec body k none h (init V) ≠ .undef :=
  never_undef hb k none h (init V) (.inl rfl)

/-- C109, violated. A function that registers another function, or itself again, in place of itself and then reads something it has captured: its copy has been destroyed. -/
theorem C109_negation_replaced (f g : Nat) (v : V) (hf : body f v = [.reg (some g), .use]) (k : Nat) (hk : 5 ≤ k) : exec body k none [.reg (some f), .poll v] (init V) = .undef := by
  obtain ⟨k, rfl⟩ := Nat.exists_eq_add_of_le' hk
  simp [exec, St.put, init, code, hf]

/-! ### Concrete cases -/

/-- Function 0 registers function 1 in place of itself; function 1 only prints; function 2 polls twice what it gets, with function 1 in place of itself. -/
def exBody : Nat → Nat → List (Act Nat)
  | 0, _ => [.use, .regPy (some 1)]
  | 2, v => [.reg (some 1), .poll (v + 1), .poll (v + 2)]
  | _, _ => [.use]

/-- A history in which functions change while they run: the value 5 goes to nobody, 6 to function 0, 7 to function 1, 8 to function 2, which passes 9 and 10 to function 1. -/
example : ∃ s, exec exBody 20 none [.poll 5, .reg (some 0), .poll 6, .user, .poll 7, .reg (some 2), .poll 8, .regPy none, .poll 11, .reg none, .poll 12] (init Nat) = .done s ∧ s.log = [(0, 6), (1, 7), (2, 8), (1, 9), (1, 10)] ∧ s.log = expected s.trace :=
  by
  refine ⟨_, rfl, rfl, ?_⟩
  exact C109_latest (body := exBody) 20 [.poll 5, .reg (some 0), .poll 6, .user, .poll 7, .reg (some 2), .poll 8, .regPy none, .poll 11, .reg none, .poll 12] _ rfl

theorem exBody_early (f : Nat) (v : Nat) : Early (exBody f v) := by
  unfold exBody
  split
  · exact ⟨1, [.regPy (some 1)], rfl, by simp⟩
  · exact ⟨0, _, rfl, by simp⟩
  · exact ⟨1, [], rfl, by simp⟩

example (k : Nat) (h : List (Act Nat)) : exec exBody k none h (init Nat) ≠ .undef := C109_defined_partial exBody_early k h

/-- Two functions in turn. -/
example : ∃ N, ∀ k, N ≤ k → ∃ s, exec (fun _ _ => [.use, .use]) k none [.poll 1, .reg (some 3), .poll 2, .regPy (some 4), .poll 3, .poll 4] (init Nat) = .done s ∧ s.log = [(3, 2), (4, 3), (4, 4)] :=
  C109_history (by simp) _ (by simp)

example : exec (fun _ _ => [.reg (some 1), .use]) 5 none [.reg (some 0), .poll 3] (init Nat) = .undef := C109_negation_replaced 0 1 3 rfl 5 (Nat.le_refl _)

end LM.Poll
