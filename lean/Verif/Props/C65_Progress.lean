import Verif.Model.Progress
import Mathlib.Data.List.Sublists
import Mathlib.Algebra.Order.Field.Rat
import Mathlib.Tactic.Linarith
import Mathlib.Tactic.NormNum
import Mathlib.Tactic.FieldSimp
import Mathlib.Tactic.Positivity
/-
  C65: progress reporting combinators.

  Specification: `Tree.leaves`: the contexts at the ends of a tree of mux and delay contexts, in order. `mark`: the time of the last start or update in a list of forwarded calls.
-/
namespace LM.Progress

mutual
/-- The contexts a tree forwards to, in order. -/
def Tree.leaves : Tree → List Nat
  | .leaf i => [i]
  | .mux ts => Forest.leaves ts
  | .delay _ _ t => Tree.leaves t
def Forest.leaves : Forest → List Nat
  | .nil => []
  | .cons t ts => Tree.leaves t ++ Forest.leaves ts
end

/-- Calls that are not updates. -/
def Call.boundary : Call → Bool
  | .start _ _ _ => true
  | .fin => true
  | _ => false

/-- A start or an update. -/
def Call.marks : Call → Bool
  | .fin => false
  | _ => true

/-! ### One call -/

mutual
theorem Tree.leaves_call (clk : Nat → Int) (c : Call) : ∀ (t : Tree) (k : Nat), (t.call clk c k).1.leaves = t.leaves
  | .leaf i, k => by simp [Tree.call]
  | .mux ts, k => by
    have := Forest.leaves_call clk c ts k
    simpa [Tree.call, Tree.leaves] using this
  | .delay d last t, k => by
    have h := Tree.leaves_call clk c t
    unfold Tree.call
    cases c with
    | start m a b => simpa [Tree.leaves] using h (k + 1)
    | fin => simpa [Tree.leaves] using h k
    | update n => dsimp only; split_ifs <;> simp [Tree.leaves, h]
    | updateTime n => dsimp only; split_ifs <;> simp [Tree.leaves, h]
theorem Forest.leaves_call (clk : Nat → Int) (c : Call) : ∀ (t : Forest) (k : Nat), (t.call clk c k).1.leaves = t.leaves
  | .nil, k => by simp [Forest.call]
  | .cons t ts, k => by
    unfold Forest.call
    simp [Forest.leaves, Tree.leaves_call clk c t, Forest.leaves_call clk c ts]
end

mutual
theorem Tree.call_boundary (clk : Nat → Int) (c : Call) (hc : c.boundary = true) : ∀ (t : Tree) (k : Nat), (t.call clk c k).2.2 = t.leaves.map (fun i => (i, c))
  | .leaf i, k => by simp [Tree.call, Tree.leaves]
  | .mux ts, k => by
    have := Forest.call_boundary clk c hc ts k
    simpa [Tree.call, Tree.leaves] using this
  | .delay d last t, k => by
    have h := Tree.call_boundary clk c hc t
    unfold Tree.call
    cases c with
    | start m a b => simpa [Tree.leaves] using h (k + 1)
    | fin => simpa [Tree.leaves] using h k
    | update n => cases hc
    | updateTime n => cases hc
theorem Forest.call_boundary (clk : Nat → Int) (c : Call) (hc : c.boundary = true) : ∀ (t : Forest) (k : Nat), (t.call clk c k).2.2 = t.leaves.map (fun i => (i, c))
  | .nil, k => by simp [Forest.call, Forest.leaves]
  | .cons t ts, k => by
    unfold Forest.call
    simp [Forest.leaves, Tree.call_boundary clk c hc t, Forest.call_boundary clk c hc ts]
end

mutual
theorem Tree.call_sublist (clk : Nat → Int) (c : Call) : ∀ (t : Tree) (k : Nat), (t.call clk c k).2.2.Sublist (t.leaves.map (fun i => (i, c)))
  | .leaf i, k => by simp [Tree.call, Tree.leaves]
  | .mux ts, k => by
    have := Forest.call_sublist clk c ts k
    simpa [Tree.call, Tree.leaves] using this
  | .delay d last t, k => by
    have h := Tree.call_sublist clk c t
    unfold Tree.call
    cases c with
    | start m a b => simpa [Tree.leaves] using h (k + 1)
    | fin => simpa [Tree.leaves] using h k
    | update n => dsimp only; split_ifs <;> simp [Tree.leaves, h]
    | updateTime n => dsimp only; split_ifs <;> simp [Tree.leaves, h]
theorem Forest.call_sublist (clk : Nat → Int) (c : Call) : ∀ (t : Forest) (k : Nat), (t.call clk c k).2.2.Sublist (t.leaves.map (fun i => (i, c)))
  | .nil, k => by simp [Forest.call, Forest.leaves]
  | .cons t ts, k => by
    unfold Forest.call
    simp only [Forest.leaves, List.map_append]
    exact (Tree.call_sublist clk c t _).append (Forest.call_sublist clk c ts _)
end

mutual
/-- A tree without delayed contexts. -/
def Tree.direct : Tree → Bool
  | .leaf _ => true
  | .mux ts => Forest.direct ts
  | .delay _ _ _ => false
def Forest.direct : Forest → Bool
  | .nil => true
  | .cons t ts => Tree.direct t && Forest.direct ts
end

mutual
theorem Tree.call_direct (clk : Nat → Int) (c : Call) : ∀ (t : Tree) (k : Nat), t.direct = true → t.call clk c k = (t, k, t.leaves.map (fun i => (i, c)))
  | .leaf i, k, _ => by simp [Tree.call, Tree.leaves]
  | .mux ts, k, h => by
    have := Forest.call_direct clk c ts k (by simpa [Tree.direct] using h)
    simp [Tree.call, Tree.leaves, this]
  | .delay d last t, k, h => by simp [Tree.direct] at h
theorem Forest.call_direct (clk : Nat → Int) (c : Call) : ∀ (t : Forest) (k : Nat), t.direct = true → t.call clk c k = (t, k, t.leaves.map (fun i => (i, c)))
  | .nil, k, _ => by simp [Forest.call, Forest.leaves]
  | .cons t ts, k, h => by
    simp only [Forest.direct, Bool.and_eq_true] at h
    unfold Forest.call
    simp [Forest.leaves, Tree.call_direct clk c t _ h.1, Forest.call_direct clk c ts _ h.2]
end

/-! ### Histories -/

/-- C65. A multiplexed context, nested to any depth, forwards each call of a history to every member once, in order. -/
theorem C65_mux (clk : Nat → Int) (t : Tree) (h : t.direct = true) (k : Nat) (cs : List Call) :
    (t.calls clk k cs).2.2 = cs.flatMap (fun c => t.leaves.map (fun i => (i, c))) := by
  induction cs with
  | nil => simp [Tree.calls]
  | cons c cs ih =>
    unfold Tree.calls
    dsimp only
    rw [Tree.call_direct clk c t k h]
    dsimp only
    rw [ih, List.flatMap_cons]

/-- The calls one context receives. -/
def received (i : Nat) (l : List (Nat × Call)) : List Call := (l.filter (fun e => e.1 = i)).map (·.2)

/-- C65. In any tree of multiplexed and delayed contexts, whatever the clock shows: every context at the end of a branch receives all starts and ends, once per occurrence, in their order among each other, and of the updates a part, in their order; it receives nothing else. -/
theorem C65_tree (clk : Nat → Int) (t : Tree) (k : Nat) (cs : List Call) (i : Nat) (hi : t.leaves.count i = 1) :
    (received i (t.calls clk k cs).2.2).Sublist cs ∧ (received i (t.calls clk k cs).2.2).filter Call.boundary = cs.filter Call.boundary := by
  induction cs generalizing t k with
  | nil => simp [Tree.calls, received]
  | cons c cs ih =>
    have hl : (t.call clk c k).1.leaves = t.leaves := Tree.leaves_call clk c t k
    obtain ⟨h1, h2⟩ := ih (t.call clk c k).1 (t.call clk c k).2.1 (by rw [hl]; exact hi)
    have ra : ∀ a b, received i (a ++ b) = received i a ++ received i b := by intro a b; simp [received]
    have rl : received i (t.leaves.map (fun j => (j, c))) = [c] := by
      unfold received
      rw [List.filter_map, List.map_map]
      have : (List.filter ((fun e : Nat × Call => decide (e.1 = i)) ∘ fun j => (j, c)) t.leaves) = [i] := by
        have e : ((fun e : Nat × Call => decide (e.1 = i)) ∘ fun j => (j, c)) = (fun j => j == i) := by
          funext j; simp [Function.comp, beq_eq_decide]
        rw [e, List.filter_beq, hi]; rfl
      rw [this]; rfl
    unfold Tree.calls
    dsimp only
    rw [ra]
    have hs : (received i (t.call clk c k).2.2).Sublist [c] := by
      rw [← rl]
      exact ((Tree.call_sublist clk c t k).filter _).map _
    refine ⟨?_, ?_⟩
    · exact hs.append h1
    · rw [List.filter_append, h2, List.filter_cons]
      by_cases hb : c.boundary = true
      · rw [if_pos hb, Tree.call_boundary clk c hb, rl]
        simp [hb]
      · rw [if_neg hb]
        have : (received i (t.call clk c k).2.2).filter Call.boundary = [] := by
          have := hs.filter Call.boundary
          rw [List.filter_cons, if_neg hb, List.filter_nil] at this
          exact List.sublist_nil.mp this
        rw [this, List.nil_append]

/-- C65. A tree starts its contexts first: if the history begins with a start, that is the first call each context receives. -/
theorem C65_start_first (clk : Nat → Int) (t : Tree) (k : Nat) (m : Mode) (a : Int) (b : ℚ) (cs : List Call) (i : Nat) (hi : t.leaves.count i = 1) :
    (received i (t.calls clk k (.start m a b :: cs)).2.2).head? = some (.start m a b) := by
  unfold Tree.calls
  dsimp only
  rw [Tree.call_boundary clk _ rfl]
  have rl : received i (t.leaves.map (fun j => (j, Call.start m a b))) = [Call.start m a b] := by
    unfold received
    rw [List.filter_map, List.map_map]
    have : (List.filter ((fun e : Nat × Call => decide (e.1 = i)) ∘ fun j => (j, Call.start m a b)) t.leaves) = [i] := by
      have e : ((fun e : Nat × Call => decide (e.1 = i)) ∘ fun j => (j, Call.start m a b)) = (fun j => j == i) := by
        funext j; simp [Function.comp, beq_eq_decide]
      rw [e, List.filter_beq, hi]; rfl
    rw [this]; rfl
  have ra : ∀ x y, received i (x ++ y) = received i x ++ received i y := by intro x y; simp [received]
  rw [ra, rl]; rfl

/-! ### The rate of a delayed context -/

/-- The time of the last start or update that was forwarded; the epoch if there is none. -/
def mark (out : List (Int × Call)) : Int := ((out.filter (fun e => e.2.marks)).map (·.1)).getLastD 0

theorem mark_snoc (out : List (Int × Call)) (t : Int) (c : Call) : mark (out ++ [(t, c)]) = if c.marks = true then t else mark out := by
  unfold mark
  rw [List.filter_append]
  by_cases h : c.marks = true
  · rw [if_pos h]; simp [h]
  · rw [if_neg h]; simp [h]

theorem delayRun_snoc (d : Int) (h : List (Int × Call)) (t : Int) (c : Call) :
    delayRun d (h ++ [(t, c)]) = ((delayStep d (delayRun d h).1 t c).1, (delayRun d h).2 ++ (delayStep d (delayRun d h).1 t c).2.map (fun c => (t, c))) := by
  unfold delayRun; rw [List.foldl_append]; rfl

theorem delay_mark (d : Int) (h : List (Int × Call)) : (delayRun d h).1 = mark (delayRun d h).2 := by
  induction h using List.reverseRecOn with
  | nil => rfl
  | append_singleton h e ih =>
    obtain ⟨t, c⟩ := e
    rw [delayRun_snoc]
    dsimp only
    unfold delayStep
    cases c with
    | start m a b => simp [mark_snoc, Call.marks]
    | fin => simp [mark_snoc, Call.marks, ih]
    | update n => dsimp only; split_ifs <;> simp [mark_snoc, Call.marks, ih]
    | updateTime n => dsimp only; split_ifs <;> simp [mark_snoc, Call.marks, ih]

/-- C65. A delayed context forwards starts and ends, and forwards an update exactly when more than the delay has passed since the last start or update it forwarded. -/
theorem C65_delay (d : Int) (h : List (Int × Call)) (t : Int) (c : Call) :
    (delayRun d (h ++ [(t, c)])).2 = (delayRun d h).2 ++ (if c.boundary = true ∨ d < (t - mark (delayRun d h).2).tdiv 1000000 then [(t, c)] else []) := by
  rw [delayRun_snoc]
  dsimp only
  rw [delay_mark]
  congr 1
  unfold delayStep ms
  cases c with
  | start m a b => simp [Call.boundary]
  | fin => simp [Call.boundary]
  | update n =>
    dsimp only
    by_cases hx : d < (t - mark (delayRun d h).2).tdiv 1000000
    · rw [if_pos hx, if_pos (Or.inr hx)]; rfl
    · rw [if_neg hx, if_neg (by rintro (h | h); cases h; exact hx h)]; rfl
  | updateTime n =>
    dsimp only
    by_cases hx : d < (t - mark (delayRun d h).2).tdiv 1000000
    · rw [if_pos hx, if_pos (Or.inr hx)]; rfl
    · rw [if_neg hx, if_neg (by rintro (h | h); cases h; exact hx h)]; rfl

/-- C65. With a clock that does not run backwards, a delayed context forwards at most one update per interval: between a forwarded start or update and any later forwarded update there are more than d milliseconds. -/
theorem C65_rate (d : Int) (hd : 0 ≤ d) (h : List (Int × Call)) (hm : h.Pairwise (fun a b => a.1 ≤ b.1)) (h0 : ∀ e ∈ h, 0 ≤ e.1) :
    (delayRun d h).2.Pairwise (fun a b => a.2.marks = true → b.2.boundary = false → b.1 - a.1 ≥ (d + 1) * 1000000) := by
  have sub : ∀ h : List (Int × Call), (delayRun d h).2.Sublist h := by
    intro h
    induction h using List.reverseRecOn with
    | nil => exact List.Sublist.refl _
    | append_singleton h e ih =>
      rw [C65_delay]
      split_ifs
      · exact ih.append (List.Sublist.refl _)
      · rw [List.append_nil]; exact ih.trans (List.sublist_append_left _ _)
  have le_mark : ∀ out : List (Int × Call), out.Pairwise (fun a b => a.1 ≤ b.1) → ∀ a ∈ out, a.2.marks = true → a.1 ≤ mark out := by
    intro out
    induction out using List.reverseRecOn with
    | nil => intro _ a ha; simp at ha
    | append_singleton out e ih =>
      intro hp a ha hma
      rw [List.pairwise_append] at hp
      rw [mark_snoc]
      rcases List.mem_append.mp ha with ha | ha
      · have hae := hp.2.2 a ha e (by simp)
        split_ifs with hc
        · exact hae
        · exact ih hp.1 a ha hma
      · rw [List.mem_singleton] at ha
        subst ha
        rw [if_pos hma]
  induction h using List.reverseRecOn with
  | nil => exact List.Pairwise.nil
  | append_singleton h e ih =>
    obtain ⟨t, c⟩ := e
    rw [List.pairwise_append] at hm
    have ih' := ih hm.1 (fun e he => h0 e (by simp [he]))
    rw [C65_delay]
    split_ifs with hf
    · rw [List.pairwise_append]
      refine ⟨ih', List.pairwise_singleton _ _, ?_⟩
      intro a ha b hb hma hbb
      rw [List.mem_singleton] at hb
      subst hb
      rcases hf with hf | hf
      · dsimp only at hbb; rw [hf] at hbb; cases hbb
      · dsimp only
        have hle := le_mark (delayRun d h).2 (hm.1.sublist (sub h)) a ha hma
        have : (t - mark (delayRun d h).2).tdiv 1000000 * 1000000 ≤ t - mark (delayRun d h).2 := by
          have hpos : 0 < (t - mark (delayRun d h).2).tdiv 1000000 := by omega
          have hnn : 0 ≤ t - mark (delayRun d h).2 := by
            by_contra hneg
            have : (t - mark (delayRun d h).2).tdiv 1000000 ≤ 0 := by
              have := Int.tdiv_nonneg (a := -(t - mark (delayRun d h).2)) (b := 1000000) (by omega) (by norm_num)
              rw [Int.neg_tdiv] at this; omega
            omega
          rw [Int.tdiv_eq_ediv_of_nonneg hnn]
          exact Int.ediv_mul_le _ (by norm_num)
        nlinarith
    · rw [List.append_nil]; exact ih'

/-! ### The default context -/

/-- C65. The default context reports an update only in the mode it was started in, and only when more than half a second has passed since the start or its last report; the end is always reported. The percentage lies between 0 and 100 and the remaining time is not negative, as long as the counts are between 0 and the total. -/
theorem C65_default (s : Default) (now : Int) (n : Int) (e : ℚ) :
    (defaultStep (some s) now (.update n) = some (if s.mode = .samples ∧ 500 < ms (now - s.last) then
        (some { s with last := now }, [.samples n s.total ((n : ℚ) / s.total * 100) (if n = 0 then none else some ((ms (now - s.start) * (s.total - n)).tdiv n))]) else (some s, []))) ∧
    (defaultStep (some s) now (.updateTime e) = some (if s.mode = .time ∧ 500 < ms (now - s.last) then
        (some { s with last := now }, [.time e s.totalTime (e / s.totalTime * 100) (s.totalTime - e)]) else (some s, []))) ∧
    defaultStep (some s) now .fin = some (some s, [.completed]) ∧
    (0 ≤ n → n ≤ s.total → 0 < s.total → 0 ≤ (n : ℚ) / s.total * 100 ∧ (n : ℚ) / s.total * 100 ≤ 100) ∧
    (0 < n → n ≤ s.total → s.start ≤ now → 0 ≤ (ms (now - s.start) * (s.total - n)).tdiv n) := by
  refine ⟨?_, ?_, rfl, ?_, ?_⟩
  · unfold defaultStep
    dsimp only
    by_cases hm : s.mode = .samples
    · rw [if_neg (not_not.mpr hm)]
      by_cases ht : ms (now - s.last) > 500
      · rw [if_pos ht]; exact congrArg some (if_pos ⟨hm, ht⟩).symm
      · rw [if_neg ht]; exact congrArg some (if_neg (by rintro ⟨_, h⟩; exact ht h)).symm
    · rw [if_pos hm]; exact congrArg some (if_neg (by rintro ⟨h, _⟩; exact hm h)).symm
  · unfold defaultStep
    dsimp only
    by_cases hm : s.mode = .time
    · rw [if_neg (not_not.mpr hm)]
      by_cases ht : ms (now - s.last) > 500
      · rw [if_pos ht]; exact congrArg some (if_pos ⟨hm, ht⟩).symm
      · rw [if_neg ht]; exact congrArg some (if_neg (by rintro ⟨_, h⟩; exact ht h)).symm
    · rw [if_pos hm]; exact congrArg some (if_neg (by rintro ⟨h, _⟩; exact hm h)).symm
  · intro h0 h1 h2
    have h0' : (0 : ℚ) ≤ n := by exact_mod_cast h0
    have h1' : (n : ℚ) ≤ s.total := by exact_mod_cast h1
    have h2' : (0 : ℚ) < s.total := by exact_mod_cast h2
    have : (n : ℚ) / s.total ≤ 1 := by rw [div_le_one h2']; exact h1'
    have : 0 ≤ (n : ℚ) / s.total := by positivity
    constructor <;> linarith
  · intro h0 h1 h2
    apply Int.tdiv_nonneg _ h0.le
    apply mul_nonneg _ (by omega)
    unfold ms
    exact Int.tdiv_nonneg (by omega) (by norm_num)

/-- Reports of a history of the default context with their times; none: undefined behaviour. -/
def defaultRun : Option Default → List (Int × Call) → Option (List (Int × Report))
  | _, [] => some []
  | s, e :: es => (defaultStep s e.1 e.2).bind fun r => (defaultRun r.1 es).map fun l => r.2.map (fun x => (e.1, x)) ++ l

/-- C65. After a start, every history of calls is handled without undefined behaviour. -/
theorem C65_default_defined (s : Default) (h : List (Int × Call)) : ∃ l, defaultRun (some s) h = some l := by
  induction h generalizing s with
  | nil => exact ⟨[], rfl⟩
  | cons e es ih =>
    obtain ⟨t, c⟩ := e
    have : ∃ s' r, defaultStep (some s) t c = some (some s', r) := by
      unfold defaultStep
      cases c with
      | start m a b => exact ⟨_, _, rfl⟩
      | fin => exact ⟨_, _, rfl⟩
      | update n => dsimp only; split_ifs <;> exact ⟨_, _, rfl⟩
      | updateTime n => dsimp only; split_ifs <;> exact ⟨_, _, rfl⟩
    obtain ⟨s', r, e1⟩ := this
    obtain ⟨l, hl⟩ := ih s'
    exact ⟨r.map (fun x => (t, x)) ++ l, by unfold defaultRun; rw [e1]; simp [hl]⟩

/-- A boundary of C65: updates before the first start are forwarded by a delayed context (its last update time is the epoch) and are undefined behaviour in the default context. -/
theorem C65_boundary_no_start : (delayRun 100 [(1000000000, .update 1)]).2 = [(1000000000, .update 1)] ∧ defaultStep none 0 (.update 1) = none := ⟨by decide, rfl⟩

/-! ### Concrete case: a mux of a context and a delayed context -/

example : (Tree.mux (.cons (.leaf 0) (.cons (.delay 100 0 (.leaf 1)) .nil))).leaves.count 1 = 1 := by decide
example : ((Tree.mux (.cons (.leaf 0) (.cons (.delay 100 0 (.leaf 1)) .nil))).calls (fun k => 150000000 * k) 1 [.start .samples 10 (-1), .update 1, .update 2, .fin]).2.2
    = [(0, .start .samples 10 (-1)), (1, .start .samples 10 (-1)), (0, .update 1), (1, .update 1), (0, .update 2), (1, .update 2), (0, .fin), (1, .fin)] := by decide +kernel
example : ((Tree.mux (.cons (.leaf 0) (.cons (.delay 200 0 (.leaf 1)) .nil))).calls (fun k => 150000000 * k) 1 [.start .samples 10 (-1), .update 1, .update 2, .fin]).2.2
    = [(0, .start .samples 10 (-1)), (1, .start .samples 10 (-1)), (0, .update 1), (0, .update 2), (1, .update 2), (0, .fin), (1, .fin)] := by decide +kernel
example : (Tree.mux (.cons (.leaf 0) (.cons (.mux (.cons (.leaf 1) .nil)) .nil))).direct = true := by decide
example : [(0, Call.start .samples 10 (-1)), (250000000, .update 1), (300000000, .fin)].Pairwise (fun a b => a.1 ≤ b.1) := by decide

end LM.Progress
