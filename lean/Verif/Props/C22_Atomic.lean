import Verif.Model.Film
import Mathlib.Algebra.BigOperators.Group.Finset.Basic
import Mathlib.Algebra.BigOperators.Group.Finset.Piecewise
import Mathlib.Algebra.BigOperators.Group.List.Basic
namespace LM.Film

/-- Specification: applying a list of operations one after the other. -/
def applySeq {V : Type} (cell : Nat → V) (l : List (Nat × Op V)) : Nat → V :=
  l.foldl (fun c o => fun j => if j = o.2.px then o.2.f (c o.2.px) else c j) cell

theorem applySeq_append {V : Type} (cell : Nat → V) (l l' : List (Nat × Op V)) : applySeq cell (l ++ l') = applySeq (applySeq cell l) l' := by
  simp [applySeq, List.foldl_append]

/-- Operations of thread `t` in a log. -/
def ofThread {V : Type} (t : Nat) (l : List (Nat × Op V)) : List (Op V) := (l.filter (fun e => e.1 == t)).map (·.2)

structure CInv {V : Type} (cell : Nat → V) (ops : Nat → List (Op V)) (m : Mem V) : Prop where
  val : m.cell = applySeq cell m.log
  prog : ∀ t, ofThread t m.log ++ (m.th t).todo = ops t

theorem cinv_step {V : Type} [DecidableEq V] (cell : Nat → V) (ops : Nat → List (Op V)) (m : Mem V) (c : Nat × Bool) (h : CInv cell ops m) :
    CInv cell ops (casStep m c) := by
  obtain ⟨t, sp⟩ := c
  have hp := h.prog
  simp only [casStep]
  split
  · exact h
  · next op rest htodo =>
    split
    · refine ⟨h.val, fun u => ?_⟩
      by_cases hu : u = t
      · subst hu; simp only [setF, if_pos]; rw [← htodo]; exact hp u
      · simp only [setF, if_neg hu]; exact hp u
    · next e hl =>
      split
      · next hc =>
        refine ⟨?_, fun u => ?_⟩
        · simp only [applySeq_append, ← h.val]
          funext j
          simp only [applySeq, List.foldl_cons, List.foldl_nil, setF, hc.2]
        · by_cases hu : u = t
          · subst hu
            have := hp u
            rw [htodo] at this
            simp [setF, ofThread, List.filter_append] at this ⊢
            exact this
          · have := hp u
            have hne : (t == u) = false := by simpa using fun h => hu h.symm
            simp [setF, hu, ofThread, List.filter_append, hne] at this ⊢
            exact this
      · refine ⟨h.val, fun u => ?_⟩
        by_cases hu : u = t
        · subst hu; simp only [setF, if_pos]; rw [← htodo]; exact hp u
        · simp only [setF, if_neg hu]; exact hp u

theorem cinv_run {V : Type} [DecidableEq V] (cell : Nat → V) (ops : Nat → List (Op V)) (sched : List (Nat × Bool)) (m : Mem V) (h : CInv cell ops m) :
    CInv cell ops (casRun m sched) := by
  induction sched generalizing m with
  | nil => exact h
  | cons c sched ih => exact ih _ (cinv_step cell ops m c h)

/-- C22. Linearizability: in every interleaving (including spurious failures), once all operations are done, the pixels hold the result of applying all
    operations in one sequential order that contains exactly every thread's operations, in that thread's order. -/
theorem C22_linearizable {V : Type} [DecidableEq V] (cell : Nat → V) (ops : Nat → List (Op V)) (sched : List (Nat × Bool))
    (hdone : ∀ t, ((casRun (casInit cell ops) sched).th t).todo = []) :
    ∃ order : List (Nat × Op V), (∀ t, ofThread t order = ops t) ∧ (casRun (casInit cell ops) sched).cell = applySeq cell order := by
  have h := cinv_run cell ops sched (casInit cell ops) ⟨rfl, fun t => by simp [casInit, ofThread]⟩
  refine ⟨(casRun (casInit cell ops) sched).log, fun t => ?_, h.val⟩
  have := h.prog t
  rw [hdone t, List.append_nil] at this
  exact this

/-- C22. At every moment (also before all operations are done) the pixels are those of the operations completed so far: nothing is half-applied, lost or
    applied twice. -/
theorem C22_prefix {V : Type} [DecidableEq V] (cell : Nat → V) (ops : Nat → List (Op V)) (sched : List (Nat × Bool)) :
    ∃ order : List (Nat × Op V), (∀ t, ofThread t order ++ ((casRun (casInit cell ops) sched).th t).todo = ops t) ∧
      (casRun (casInit cell ops) sched).cell = applySeq cell order := by
  have h := cinv_run cell ops sched (casInit cell ops) ⟨rfl, fun t => by simp [casInit, ofThread]⟩
  exact ⟨_, h.prog, h.val⟩

/-- C22. A thread running alone completes its next operation in at most three steps unless exchanges fail spuriously (no livelock by itself). -/
theorem C22_lock_free {V : Type} [DecidableEq V] (m : Mem V) (t : Nat) (op : Op V) (rest : List (Op V)) (h : (m.th t).todo = op :: rest) :
    ∃ k ≤ 2, ((casRun m (List.replicate k (t, false))).th t).todo = rest := by
  cases hl : (m.th t).loaded with
  | none =>
    refine ⟨2, by omega, ?_⟩
    simp [casRun, List.replicate, casStep, h, hl, setF]
  | some e =>
    by_cases he : m.cell op.px = e
    · refine ⟨1, by omega, ?_⟩
      simp [casRun, List.replicate, casStep, h, hl, setF, he]
    · refine ⟨2, by omega, ?_⟩
      simp [casRun, List.replicate, casStep, h, hl, setF, he]

theorem applySeq_add {V : Type} [AddCommMonoid V] (cell : Nat → V) (l : List (Nat × (Nat × V))) (p : Nat) :
    applySeq cell (l.map (fun e => (e.1, addOp e.2.1 e.2.2))) p = cell p + ((l.filter (fun e => e.2.1 == p)).map (fun e => e.2.2)).sum := by
  induction l generalizing cell with
  | nil => simp [applySeq]
  | cons e l ih =>
    have hcons : applySeq cell ((e :: l).map (fun e => (e.1, addOp e.2.1 e.2.2))) =
        applySeq (fun j => if j = e.2.1 then cell e.2.1 + e.2.2 else cell j) (l.map (fun e => (e.1, addOp e.2.1 e.2.2))) := rfl
    rw [hcons, ih]
    by_cases hp : e.2.1 = p
    · subst hp
      simp [add_assoc]
    · have hp' : ¬ p = e.2.1 := fun h => hp h.symm
      simp [hp, hp']

/-- Sum of a list split by a bounded key. -/
theorem sum_by_key {V : Type} [AddCommMonoid V] {α : Type} (l : List α) (key : α → Nat) (val : α → V) (T : Nat) (h : ∀ e ∈ l, key e < T) :
    (l.map val).sum = ∑ t ∈ Finset.range T, ((l.filter (fun e => key e == t)).map val).sum := by
  induction l with
  | nil => simp
  | cons e l ih =>
    have hk : key e < T := h e (by simp)
    rw [List.map_cons, List.sum_cons, ih (fun e' he' => h e' (by simp [he']))]
    have : ∀ t, (((e :: l).filter (fun e => key e == t)).map val).sum =
        (if t = key e then val e else 0) + ((l.filter (fun e => key e == t)).map val).sum := by
      intro t
      by_cases hh : key e = t
      · simp [hh]
      · have h' : ¬ t = key e := fun h => hh h.symm
        simp [hh, h']
    simp only [this, Finset.sum_add_distrib, Finset.sum_ite_eq', Finset.mem_range, hk, if_true]

/-- C22. Concurrent splats: with exact addition, when all threads 0..T-1 are done each pixel holds its initial value plus the sum of all values splatted to
    it, in every interleaving. -/
theorem C22_splats_sum {V : Type} [AddCommMonoid V] [DecidableEq V] (cell : Nat → V) (T : Nat) (splats : Nat → List (Nat × V))
    (hT : ∀ t, T ≤ t → splats t = []) (sched : List (Nat × Bool))
    (hdone : ∀ t, ((casRun (casInit cell (fun t => (splats t).map (fun s => addOp s.1 s.2))) sched).th t).todo = []) (p : Nat) :
    (casRun (casInit cell (fun t => (splats t).map (fun s => addOp s.1 s.2))) sched).cell p =
      cell p + ∑ t ∈ Finset.range T, (((splats t).filter (fun s => s.1 == p)).map (·.2)).sum := by
  obtain ⟨order, h1, h2⟩ := C22_linearizable cell _ sched hdone
  rw [h2]
  -- every logged operation is a splat of its thread
  have hmem : ∀ e ∈ order, ∃ s : Nat × V, e.2 = addOp s.1 s.2 := by
    intro e he
    have : e.2 ∈ ofThread e.1 order := by
      simp only [ofThread, List.mem_map, List.mem_filter]
      exact ⟨e, ⟨he, by simp⟩, rfl⟩
    rw [h1] at this
    obtain ⟨s, _, hs⟩ := List.mem_map.mp this
    exact ⟨s, hs.symm⟩
  -- choose the splats
  have : ∃ l : List (Nat × (Nat × V)), order = l.map (fun e => (e.1, addOp e.2.1 e.2.2)) := by
    clear h1 h2 hdone
    induction order with
    | nil => exact ⟨[], rfl⟩
    | cons e order ih =>
      obtain ⟨l, hl⟩ := ih (fun e' he' => hmem e' (by simp [he']))
      obtain ⟨s, hs⟩ := hmem e (by simp)
      exact ⟨(e.1, s) :: l, by rw [hl]; simp [← hs]⟩
  obtain ⟨l, rfl⟩ := this
  rw [applySeq_add]
  congr 1
  -- add operations determine their arguments
  have inj : ∀ (a b : List (Nat × V)), a.map (fun s => addOp s.1 s.2) = b.map (fun s => addOp s.1 s.2) → a = b := by
    intro a b hab
    have hinj : Function.Injective (fun s : Nat × V => addOp s.1 s.2) := by
      rintro ⟨p1, v1⟩ ⟨p2, v2⟩ hs
      simp only [addOp, Op.mk.injEq] at hs
      have h0 := congrFun hs.2 0
      simp only [zero_add] at h0
      rw [hs.1, h0]
    exact (List.map_injective_iff.mpr hinj) hab
  have hth : ∀ t, (l.filter (fun e => e.1 == t)).map (·.2) = splats t := by
    intro t
    apply inj
    have := h1 t
    simp only [ofThread] at this
    rw [← this, List.filter_map, List.map_map, List.map_map]
    rfl
  have hlt : ∀ e ∈ l.filter (fun e => e.2.1 == p), e.1 < T := by
    intro e he
    by_contra hge
    have hs := hth e.1
    rw [hT e.1 (by omega)] at hs
    have : e.2 ∈ (l.filter (fun e' => e'.1 == e.1)).map (·.2) := by
      simp only [List.mem_map, List.mem_filter]
      exact ⟨e, ⟨(List.mem_filter.mp he).1, by simp⟩, rfl⟩
    rw [hs] at this
    simp at this
  rw [sum_by_key (l.filter (fun e => e.2.1 == p)) (fun e : Nat × (Nat × V) => e.1) (fun e => e.2.2) T hlt]
  apply Finset.sum_congr rfl
  intro t _
  rw [← hth t, List.filter_map, List.map_map, List.filter_filter, List.filter_filter]
  have hcomm : (fun (a : Nat × (Nat × V)) => (a.1 == t) && (a.2.1 == p)) = (fun a => ((fun (s : Nat × V) => s.1 == p) ∘ fun x => x.2) a && (a.1 == t)) := by
    funext a; simp [Bool.and_comm]
  rw [hcomm]
  rfl

/-- Non-vacuity: two threads splatting to the same pixel with a lost race and a spurious failure. -/
def exSplats : Nat → List (Nat × ℤ) | 0 => [(3, 5)] | 1 => [(3, 7)] | _ => []
def exSched : List (Nat × Bool) := [(0, false), (1, false), (1, true), (1, false), (0, false), (0, false)]
example : ∀ t, ((casRun (casInit (fun _ => 1) (fun t => (exSplats t).map (fun s => addOp s.1 s.2))) exSched).th t).todo = [] := by
  intro t
  match t with
  | 0 => decide
  | 1 => decide
  | t + 2 => simp [casRun, exSched, casInit, casStep, setF, exSplats, addOp]

end LM.Film
