import Verif.Model.Bvh
import Verif.Props.C30_Bound
import Mathlib.Tactic.Linarith
import Mathlib.Algebra.BigOperators.Group.List.Basic
namespace LM.Bvh
open LM LM.Bound

/-! ### Specification -/

/-- The box contains the bound of triangle k. -/
def Cov (trs : ℕ → Tri) (b : Box ℚ) (k : ℕ) : Prop := ∀ p, In p (trs k).b → In p b

/-- `Holds nodes idx trs i L`: following the child links from node i ends, the leaves below are non-empty and hold, from left to right, the triangles L, and the bound of i (and of
    each node below) contains all triangles below it. -/
inductive Holds (nodes : ℕ → Node) (idx : ℕ → ℕ) (trs : ℕ → Tri) : ℕ → List ℕ → Prop
  | leaf (i : ℕ) (h : (nodes i).leaf = true) (hne : (nodes i).s < (nodes i).e) (hc : ∀ k ∈ seg idx (nodes i).s (nodes i).e, Cov trs (nodes i).b k) :
      Holds nodes idx trs i (seg idx (nodes i).s (nodes i).e)
  | inner (i : ℕ) (L1 L2 : List ℕ) (h : (nodes i).leaf = false) (h1 : Holds nodes idx trs (nodes i).c1 L1) (h2 : Holds nodes idx trs (nodes i).c2 L2)
      (hc : ∀ k ∈ L1 ++ L2, Cov trs (nodes i).b k) : Holds nodes idx trs i (L1 ++ L2)

/-- Reachable states, for any number of steps. -/
inductive Reach (trs : ℕ → Tri) (n k : ℕ) : St → Prop
  | init : Reach trs n k (St.init n k)
  | step (s t) (h : Reach trs n k s) (hs : Step trs n s t) : Reach trs n k t

/-! ### Ghost tree -/

inductive GT
  | opn (E : Entry) (bd : Bool)
  | leaf (i : ℕ)
  | node (i : ℕ) (l r : GT)

namespace GT
def id : GT → ℕ
  | opn E _ => E.i
  | leaf i => i
  | node i _ _ => i
def opens : GT → List (Entry × Bool)
  | opn E b => [(E, b)]
  | leaf _ => []
  | node _ l r => l.opens ++ r.opens
def ids : GT → List ℕ
  | opn E _ => [E.i]
  | leaf i => [i]
  | node i l r => i :: (l.ids ++ r.ids)
end GT

def CovR (trs : ℕ → Tri) (idx : ℕ → ℕ) (b : Box ℚ) (s e : ℕ) : Prop := ∀ j, s ≤ j → j < e → Cov trs b (idx j)

def Mt (trs : ℕ → Tri) (nodes : ℕ → Node) (idx : ℕ → ℕ) : GT → ℕ → ℕ → Prop
  | .opn E b, s, e => E.s = s ∧ E.e = e ∧ s < e ∧ (nodes E.i).leaf = false ∧ (b = true → CovR trs idx (nodes E.i).b s e)
  | .leaf i, s, e => s < e ∧ (nodes i).leaf = true ∧ (nodes i).s = s ∧ (nodes i).e = e ∧ CovR trs idx (nodes i).b s e
  | .node i l r, s, e => ∃ m, s < m ∧ m < e ∧ (nodes i).leaf = false ∧ (nodes i).c1 = l.id ∧ (nodes i).c2 = r.id ∧ CovR trs idx (nodes i).b s e ∧
      Mt trs nodes idx l s m ∧ Mt trs nodes idx r m e

theorem Mt_lt {trs nodes idx} : ∀ T s e, Mt trs nodes idx T s e → s < e
  | .opn _ _, _, _, h => h.2.2.1
  | .leaf _, _, _, h => h.1
  | .node _ _ _, _, _, ⟨_, h1, h2, _⟩ => lt_trans h1 h2

theorem ids_le {trs nodes idx} : ∀ T s e, Mt trs nodes idx T s e → T.ids.length + 1 ≤ 2 * (e - s)
  | .opn _ _, s, e, h => by have := h.2.2.1; simp [GT.ids]; omega
  | .leaf _, s, e, h => by have := h.1; simp [GT.ids]; omega
  | .node _ l r, s, e, ⟨m, h1, h2, _, _, _, _, h3, h4⟩ => by
    have a := ids_le l s m h3
    have b := ids_le r m e h4
    simp [GT.ids]; omega

theorem open_id_mem : ∀ (T : GT) (E : Entry) (b : Bool), (E, b) ∈ T.opens → E.i ∈ T.ids
  | .opn _ _, E, b, h => by simp [GT.opens] at h; simp [GT.ids, h.1]
  | .leaf _, E, b, h => by simp [GT.opens] at h
  | .node _ l r, E, b, h => by
    simp only [GT.opens, List.mem_append] at h
    simp only [GT.ids, List.mem_cons, List.mem_append]
    rcases h with h | h
    · exact .inr (.inl (open_id_mem l E b h))
    · exact .inr (.inr (open_id_mem r E b h))

theorem Mt_congr {trs nodes nodes' idx idx'} : ∀ T s e, (∀ i ∈ T.ids, nodes' i = nodes i) → (∀ j, s ≤ j → j < e → idx' j = idx j) →
    Mt trs nodes idx T s e → Mt trs nodes' idx' T s e
  | .opn E b, s, e, hn, hi, ⟨h1, h2, h3, h4, h5⟩ => by
    have := hn E.i (by simp [GT.ids])
    refine ⟨h1, h2, h3, by rw [this]; exact h4, fun hb => ?_⟩
    intro j j1 j2; rw [this, hi j j1 j2]; exact h5 hb j j1 j2
  | .leaf i, s, e, hn, hi, ⟨h1, h2, h3, h4, h5⟩ => by
    have := hn i (by simp [GT.ids])
    refine ⟨h1, by rw [this]; exact h2, by rw [this]; exact h3, by rw [this]; exact h4, ?_⟩
    intro j j1 j2; rw [this, hi j j1 j2]; exact h5 j j1 j2
  | .node i l r, s, e, hn, hi, ⟨m, h1, h2, h3, h4, h5, h6, h7, h8⟩ => by
    have := hn i (by simp [GT.ids])
    refine ⟨m, h1, h2, by rw [this]; exact h3, by rw [this]; exact h4, by rw [this]; exact h5, ?_, ?_, ?_⟩
    · intro j j1 j2; rw [this, hi j j1 j2]; exact h6 j j1 j2
    · exact Mt_congr l s m (fun i h => hn i (by simp [GT.ids, h])) (fun j a b => hi j a (lt_trans b h2)) h7
    · exact Mt_congr r m e (fun i h => hn i (by simp [GT.ids, h])) (fun j a b => hi j (le_trans h1.le a) b) h8

/-- What may change when one thread works on its entry: its node, and its part of the index array, permuted. -/
def Local (E : Entry) (nodes nodes' : ℕ → Node) (idx idx' : ℕ → ℕ) : Prop :=
  (∀ j, j ≠ E.i → nodes' j = nodes j) ∧ (∀ j, ¬ (E.s ≤ j ∧ j < E.e) → idx' j = idx j) ∧ (∀ j, E.s ≤ j → j < E.e → ∃ j', E.s ≤ j' ∧ j' < E.e ∧ idx' j = idx j')

theorem CovR_local {trs idx idx' b s e} {E : Entry} (h1 : s ≤ E.s) (h2 : E.e ≤ e) (ho : ∀ j, ¬ (E.s ≤ j ∧ j < E.e) → idx' j = idx j)
    (hi : ∀ j, E.s ≤ j → j < E.e → ∃ j', E.s ≤ j' ∧ j' < E.e ∧ idx' j = idx j') (h : CovR trs idx b s e) : CovR trs idx' b s e := by
  intro j j1 j2
  by_cases hj : E.s ≤ j ∧ j < E.e
  · obtain ⟨j', a, b', e'⟩ := hi j hj.1 hj.2
    rw [e']; exact h j' (by omega) (by omega)
  · rw [ho j hj]; exact h j j1 j2

/-- Replacing an open entry by a subtree. -/
theorem graft {trs nodes idx} (E : Entry) (b : Bool) : ∀ T s e, Mt trs nodes idx T s e → (E, b) ∈ T.opens → T.ids.Nodup →
    s ≤ E.s ∧ E.e ≤ e ∧ E.s < E.e ∧ (nodes E.i).leaf = false ∧ (b = true → CovR trs idx (nodes E.i).b E.s E.e) ∧
    ∃ (ro : List (Entry × Bool)) (ri : List ℕ), T.opens.Perm ((E, b) :: ro) ∧ T.ids.Perm (E.i :: ri) ∧
      ∀ T' nodes' idx', T'.id = E.i → Local E nodes nodes' idx idx' → Mt trs nodes' idx' T' E.s E.e →
        ∃ T'', T''.id = T.id ∧ Mt trs nodes' idx' T'' s e ∧ T''.opens.Perm (T'.opens ++ ro) ∧ T''.ids.Perm (T'.ids ++ ri)
  | .opn E' b', s, e, h, hm, _ => by
    simp only [GT.opens, List.mem_singleton, Prod.mk.injEq] at hm
    obtain ⟨rfl, rfl⟩ := hm
    obtain ⟨rfl, rfl, h3, h4, h5⟩ := h
    refine ⟨le_refl _, le_refl _, h3, h4, h5, [], [], by simp [GT.opens], by simp [GT.ids], ?_⟩
    intro T' nodes' idx' h1 _ h2
    exact ⟨T', h1, h2, by simp, by simp⟩
  | .leaf _, _, _, _, hm, _ => by simp [GT.opens] at hm
  | .node i l r, s, e, ⟨m, h1, h2, h3, h4, h5, h6, h7, h8⟩, hm, hnd => by
    simp only [GT.ids, List.nodup_cons, List.nodup_append, List.mem_append, not_or] at hnd
    obtain ⟨⟨hil, hir⟩, hl, hr, hd⟩ := hnd
    simp only [GT.opens, List.mem_append] at hm
    rcases hm with hm | hm
    · obtain ⟨a1, a2, a3, a4, a5, ro, ri, p1, p2, hrep⟩ := graft E b l s m h7 hm hl
      have hmem := open_id_mem l E b hm
      refine ⟨a1, by omega, a3, a4, a5, ro ++ r.opens, i :: (ri ++ r.ids), ?_, ?_, ?_⟩
      · exact (p1.append_right r.opens).trans (by simp)
      · simp only [GT.ids]
        refine ((p2.append_right r.ids).cons i).trans ?_
        simp only [List.cons_append]
        exact List.Perm.swap _ _ _
      · intro T' nodes' idx' e1 hloc e2
        obtain ⟨T'', f1, f2, f3, f4⟩ := hrep T' nodes' idx' e1 hloc e2
        have hi : nodes' i = nodes i := hloc.1 i (fun h => hil (h ▸ hmem))
        refine ⟨.node i T'' r, rfl, ⟨m, h1, h2, by rw [hi]; exact h3, by rw [hi, f1]; exact h4, by rw [hi]; exact h5, ?_, f2, ?_⟩, ?_, ?_⟩
        · rw [hi]; exact CovR_local a1 (by omega) hloc.2.1 hloc.2.2 h6
        · exact Mt_congr r m e (fun j hj => hloc.1 j (fun h => hd _ hmem _ hj h.symm)) (fun j j1 _ => hloc.2.1 j (by omega)) h8
        · simp only [GT.opens]
          exact (f3.append_right r.opens).trans (by simp)
        · simp only [GT.ids]
          refine ((f4.append_right r.ids).cons i).trans ?_
          rw [List.append_assoc]
          exact List.perm_middle.symm
    · obtain ⟨a1, a2, a3, a4, a5, ro, ri, p1, p2, hrep⟩ := graft E b r m e h8 hm hr
      have hmem := open_id_mem r E b hm
      refine ⟨by omega, a2, a3, a4, a5, l.opens ++ ro, i :: (l.ids ++ ri), ?_, ?_, ?_⟩
      · simp only [GT.opens]
        exact (p1.append_left l.opens).trans List.perm_middle
      · simp only [GT.ids]
        refine ((p2.append_left l.ids).cons i).trans ?_
        exact ((List.perm_middle).cons i).trans (List.Perm.swap _ _ _)
      · intro T' nodes' idx' e1 hloc e2
        obtain ⟨T'', f1, f2, f3, f4⟩ := hrep T' nodes' idx' e1 hloc e2
        have hi : nodes' i = nodes i := hloc.1 i (fun h => hir (h ▸ hmem))
        refine ⟨.node i l T'', rfl, ⟨m, h1, h2, by rw [hi]; exact h3, by rw [hi]; exact h4, by rw [hi, f1]; exact h5, ?_, ?_, f2⟩, ?_, ?_⟩
        · rw [hi]; exact CovR_local (by omega) a2 hloc.2.1 hloc.2.2 h6
        · exact Mt_congr l s m (fun j hj => hloc.1 j (fun h => hd _ hj _ hmem h)) (fun j _ j2 => hloc.2.1 j (by omega)) h7
        · simp only [GT.opens]
          refine (f3.append_left l.opens).trans ?_
          rw [← List.append_assoc, ← List.append_assoc]
          exact List.perm_append_comm.append_right ro
        · simp only [GT.ids]
          refine ((f4.append_left l.ids).cons i).trans ?_
          have : (i :: (l.ids ++ (T'.ids ++ ri))).Perm (i :: (T'.ids ++ (l.ids ++ ri))) := by
            apply List.Perm.cons
            rw [← List.append_assoc, ← List.append_assoc]
            exact List.perm_append_comm.append_right ri
          exact this.trans List.perm_middle.symm

/-! ### Range lemmas -/

theorem mem_seg {idx : ℕ → ℕ} {s e k : ℕ} : k ∈ seg idx s e ↔ ∃ j, s ≤ j ∧ j < e ∧ idx j = k := by
  simp only [seg, List.mem_map, List.mem_range'_1]
  constructor
  · rintro ⟨j, ⟨h1, h2⟩, h3⟩; exact ⟨j, h1, by omega, h3⟩
  · rintro ⟨j, h1, h2, h3⟩; exact ⟨j, ⟨h1, by omega⟩, h3⟩

theorem seg_append (idx : ℕ → ℕ) {s m e : ℕ} (h1 : s ≤ m) (h2 : m ≤ e) : seg idx s e = seg idx s m ++ seg idx m e := by
  unfold seg
  rw [← List.map_append]
  congr 1
  have : e - s = (m - s) + (e - m) := by omega
  rw [this, ← List.range'_append_1]
  congr 2; omega

theorem seg_congr {idx idx' : ℕ → ℕ} {s e : ℕ} (h : ∀ j, s ≤ j → j < e → idx' j = idx j) : seg idx' s e = seg idx s e := by
  unfold seg
  apply List.map_congr_left
  intro j hj
  rw [List.mem_range'_1] at hj
  exact h j hj.1 (by omega)

/-- Rearranging a part of the index array. -/
def Rearr (s e : ℕ) (idx idx' : ℕ → ℕ) : Prop := (∀ j, ¬ (s ≤ j ∧ j < e) → idx' j = idx j) ∧ (seg idx' s e).Perm (seg idx s e)

theorem Rearr.rfl' {s e idx} : Rearr s e idx idx := ⟨fun _ _ => rfl, List.Perm.refl _⟩
theorem Rearr.trans {s e a b c} (h1 : Rearr s e a b) (h2 : Rearr s e b c) : Rearr s e a c :=
  ⟨fun j hj => (h2.1 j hj).trans (h1.1 j hj), h2.2.trans h1.2⟩
theorem Sorts.rearr {trs s e a idx idx'} (h : Sorts trs s e a idx idx') : Rearr s e idx idx' := ⟨h.1, h.2.1⟩

theorem Rearr.local {E : Entry} {idx idx'} (nodes nodes' : ℕ → Node) (hn : ∀ j, j ≠ E.i → nodes' j = nodes j) (h : Rearr E.s E.e idx idx') : Local E nodes nodes' idx idx' := by
  refine ⟨hn, h.1, ?_⟩
  intro j j1 j2
  have : idx' j ∈ seg idx' E.s E.e := mem_seg.mpr ⟨j, j1, j2, rfl⟩
  obtain ⟨j', a, b, c⟩ := mem_seg.mp (h.2.mem_iff.mp this)
  exact ⟨j', a, b, c.symm⟩

theorem Rearr.whole {s e n idx idx'} (h : Rearr s e idx idx') (h1 : s ≤ e) (h2 : e ≤ n) : (seg idx' 0 n).Perm (seg idx 0 n) := by
  rw [seg_append idx' (Nat.zero_le s) (le_trans h1 h2), seg_append idx' h1 h2, seg_append idx (Nat.zero_le s) (le_trans h1 h2), seg_append idx h1 h2]
  rw [seg_congr (idx := idx) (idx' := idx') (fun j _ j2 => h.1 j (by omega)), seg_congr (idx := idx) (idx' := idx') (s := e) (e := n) (fun j j1 _ => h.1 j (by omega))]
  exact (h.2.append_right _).append_left _

theorem rangeBound_contains (trs : ℕ → Tri) (is : List ℕ) (b : Box ℚ) : (∀ p, In p b → In p (is.foldl (fun b i => merge b (trs i).b) b)) ∧
    ∀ k ∈ is, Cov trs (is.foldl (fun b i => merge b (trs i).b) b) k := by
  induction is generalizing b with
  | nil => exact ⟨fun p h => h, fun k h => absurd h (by simp)⟩
  | cons i is ih =>
    obtain ⟨h1, h2⟩ := ih (merge b (trs i).b)
    simp only [List.foldl_cons]
    refine ⟨fun p h => h1 p ((C30_merge_contains b (trs i).b p).1 (.inl h)), fun k hk => ?_⟩
    rcases List.mem_cons.mp hk with rfl | hk
    · exact fun p hp => h1 p ((C30_merge_contains b _ p).1 (.inr hp))
    · exact h2 k hk

/-! ### SAH choice -/

theorem sahAxis_spec (trs : ℕ → Tri) (sg : List ℕ) (area : ℚ) (a : ℕ) (best : Best) (P : Best → Prop) (h0 : P best)
    (h1 : ∀ best c i, P best → 1 ≤ i → i < sg.length → c < best.b → P ⟨c, some (i, a)⟩) : P (sahAxis trs sg area a best) := by
  unfold sahAxis
  have gen : ∀ (is : List ℕ) (best : Best), (∀ i ∈ is, 1 ≤ i ∧ i < sg.length) → P best → P (is.foldl (fun best i =>
      match sahCost trs sg area i with
      | none => best
      | some c => if c < best.b then ⟨c, some (i, a)⟩ else best) best) := by
    intro is
    induction is with
    | nil => intro best _ h; exact h
    | cons i is ih =>
      intro best hi hp
      simp only [List.foldl_cons]
      apply ih _ (fun j hj => hi j (by simp [hj]))
      split
      · exact hp
      · next c _ =>
        split
        · next hc => exact h1 best c i hp (hi i (by simp)).1 (hi i (by simp)).2 hc
        · exact hp
  apply gen
  · intro i hi
    rw [List.mem_range'_1] at hi
    omega
  · exact h0

theorem seg_length (idx : ℕ → ℕ) (s e : ℕ) : (seg idx s e).length = e - s := by simp [seg]

/-- The chosen position is a proper one, and there is one unless the cost is still the initial 1e10. -/
theorem sahBest_spec (trs : ℕ → Tri) (area : ℚ) (k : ℕ) (s0 s1 s2 : List ℕ) (h0 : s0.length = k) (h1 : s1.length = k) (h2 : s2.length = k) :
    let best := sahBest trs area s0 s1 s2
    (best.ia = none → best.b = Inf) ∧ ∀ bi ba, best.ia = some (bi, ba) → 1 ≤ bi ∧ bi < k ∧ best.b < Inf := by
  let P : Best → Prop := fun best => (best.ia = none → best.b = Inf) ∧ best.b ≤ Inf ∧ ∀ bi ba, best.ia = some (bi, ba) → 1 ≤ bi ∧ bi < k ∧ best.b < Inf
  have base : P ⟨Inf, none⟩ := ⟨fun _ => rfl, le_refl _, fun _ _ h => by cases h⟩
  have stp : ∀ sg : List ℕ, sg.length = k → ∀ a best, P best → P (sahAxis trs sg area a best) := by
    intro sg hsg a best hb
    refine sahAxis_spec trs sg area a best P hb ?_
    intro best c i hp i1 i2 hc
    refine ⟨fun h => by simp at h, le_of_lt (lt_of_lt_of_le hc hp.2.1), ?_⟩
    intro bi ba h
    simp only [Option.some.injEq, Prod.mk.injEq] at h
    exact ⟨by omega, by omega, lt_of_lt_of_le hc hp.2.1⟩
  have := stp s2 h2 2 _ (stp s1 h1 1 _ (stp s0 h0 0 _ base))
  exact ⟨this.1, this.2.2⟩

/-! ### Invariant -/

def openOf : Stage → List (Entry × Bool)
  | .popped E => [(E, false)]
  | .work E => [(E, false)]
  | .bounded E => [(E, true)]
  | .split E _ => [(E, true)]
  | _ => []

def size (E : Entry) : ℕ := E.e - E.s
def qsize (q : List Entry) : ℕ := (q.map size).sum
def tsize : Stage → ℕ
  | .popped E | .work E | .bounded E | .split E _ | .leafAdd E => size E
  | _ => 0
def tsizes (ts : List Stage) : ℕ := (ts.map tsize).sum

def Active : Stage → Prop
  | .waiting | .exited => False
  | _ => True

structure Inv (trs : ℕ → Tri) (n : ℕ) (st : St) : Prop where
  tree : ∃ T : GT, T.id = 0 ∧ Mt trs st.nodes st.idx T 0 n ∧ T.ids.Nodup ∧ (∀ i ∈ T.ids, i < st.nn) ∧ T.ids.length = st.nn ∧
    T.opens.Perm (st.queue.map (fun E => (E, false)) ++ st.ths.flatMap openOf)
  fresh : ∀ j, st.nn ≤ j → (st.nodes j).leaf = false
  perm : (seg st.idx 0 n).Perm (List.range n)
  sizes : st.pr + qsize st.queue + tsizes st.ths = n
  splits : ∀ E m, Stage.split E m ∈ st.ths → E.s < m ∧ m < E.e
  doneN : st.done = true → st.pr = n
  nDone : st.pr = n → st.done = true ∨ Stage.leafChk ∈ st.ths
  noWait : st.done = true → Stage.waiting ∉ st.ths
  exits : Stage.exited ∈ st.ths → st.done = true
  active : st.ths ≠ [] → st.queue ≠ [] → ∃ t ∈ st.ths, Active t

theorem inv_init (trs : ℕ → Tri) (n k : ℕ) (hn : 1 ≤ n) : Inv trs n (St.init n k) := by
  have hf : ∀ k, (List.replicate k Stage.idle).flatMap openOf = [] := by
    intro k; rw [List.flatMap_eq_nil_iff]; intro t ht; rw [List.eq_of_mem_replicate ht]; rfl
  have hz : ∀ k, tsizes (List.replicate k Stage.idle) = 0 := by
    intro k; simp [tsizes, tsize]
  refine { tree := ⟨.opn ⟨0, 0, n⟩ false, rfl, ?_, ?_, ?_, ?_, ?_⟩, fresh := fun _ _ => rfl, perm := ?_, sizes := ?_, splits := ?_, doneN := ?_, nDone := ?_, noWait := ?_, exits := ?_, active := ?_ }
  · exact ⟨rfl, rfl, hn, rfl, fun h => by cases h⟩
  · simp [GT.ids]
  · simp [GT.ids, St.init]
  · simp [GT.ids, St.init]
  · simp [GT.opens, St.init, hf]
  · simp [St.init, seg, List.range_eq_range']
  · simp [St.init, hz, qsize, size]
  · intro E m h; simp only [St.init] at h; cases List.eq_of_mem_replicate h
  · intro h; simp [St.init] at h
  · intro h; simp [St.init] at h; omega
  · intro h; simp [St.init] at h
  · intro h; simp only [St.init] at h; cases List.eq_of_mem_replicate h
  · intro h _
    have hk : k ≠ 0 := by rintro rfl; simp [St.init] at h
    exact ⟨.idle, by simp [St.init, hk], trivial⟩

theorem openOf_wakeAll (ts : List Stage) : (wakeAll ts).flatMap openOf = ts.flatMap openOf := by
  simp only [wakeAll, List.flatMap_map]
  congr 1
  funext t
  cases t <;> rfl
theorem tsizes_wakeAll (ts : List Stage) : tsizes (wakeAll ts) = tsizes ts := by
  simp only [tsizes, wakeAll, List.map_map]
  congr 1
  apply List.map_congr_left
  intro t _
  cases t <;> rfl

theorem tsizes_mid (A B : List Stage) (t : Stage) : tsizes (A ++ t :: B) = tsizes A + tsize t + tsizes B := by simp [tsizes]; omega

theorem wake1_facts {ts ts' : List Stage} (h : Wake1 ts ts') : ts'.flatMap openOf = ts.flatMap openOf ∧ tsizes ts' = tsizes ts ∧
    (∀ t, t ∈ ts' → t ∈ ts ∨ t = .idle) ∧ (∀ t, t ∈ ts → t ≠ .waiting → t ∈ ts') := by
  rcases h with ⟨_, rfl⟩ | ⟨a, b, rfl, rfl⟩
  · exact ⟨rfl, rfl, fun _ h => .inl h, fun _ h _ => h⟩
  · refine ⟨by simp [openOf], by simp [tsizes_mid, tsize], ?_, ?_⟩
    · intro t h
      simp only [List.mem_append, List.mem_cons] at h ⊢
      tauto
    · intro t h hne
      simp only [List.mem_append, List.mem_cons] at h ⊢
      tauto

/-- Swapping the moving thread. -/
theorem mem_swap {A B : List Stage} {t t' x : Stage} (h : x ∈ A ++ t' :: B) : x = t' ∨ x ∈ A ++ t :: B := by
  simp only [List.mem_append, List.mem_cons] at h ⊢; tauto
theorem mem_swap' {A B : List Stage} {t t' x : Stage} (h : x ∈ A ++ t :: B) (hx : x ≠ t) : x ∈ A ++ t' :: B := by
  simp only [List.mem_append, List.mem_cons] at h ⊢; tauto

theorem opens_mid (A B : List Stage) (t : Stage) (q : List (Entry × Bool)) : (q ++ (A ++ t :: B).flatMap openOf).Perm (openOf t ++ (q ++ (A ++ B).flatMap openOf)) := by
  simp only [List.flatMap_append, List.flatMap_cons]
  exact ((List.perm_append_comm_assoc _ _ _).append_left q).trans (List.perm_append_comm_assoc _ _ _)

theorem fresh_set {nodes : ℕ → Node} {i nn nn' : ℕ} {v : Node} (h : ∀ j, nn ≤ j → (nodes j).leaf = false) (hi : i < nn) (hle : nn ≤ nn') :
    ∀ j, nn' ≤ j → (setNode nodes i v j).leaf = false := by
  intro j hj
  have : j ≠ i := by omega
  simp only [setNode, if_neg this]
  exact h j (le_trans hle hj)

/-- Ghost-tree part of a step that rewrites the subtree of one open entry. -/
theorem tree_step {trs n nodes nodes' idx idx' nn} {T : GT} {E : Entry} {b : Bool} {R R' : List (Entry × Bool)} {T' : GT} {nn' : ℕ}
    (h0 : T.id = 0) (h1 : Mt trs nodes idx T 0 n) (h2 : T.ids.Nodup) (h3 : ∀ i ∈ T.ids, i < nn) (h4 : T.ids.length = nn) (h5 : T.opens.Perm ((E, b) :: R))
    (hid : T'.id = E.i) (hloc : Local E nodes nodes' idx idx') (hT' : Mt trs nodes' idx' T' E.s E.e)
    (hids : ∃ new : List ℕ, T'.ids.Perm (E.i :: new) ∧ new.Nodup ∧ (∀ i ∈ new, nn ≤ i ∧ i < nn') ∧ nn + new.length = nn')
    (hR : (T'.opens ++ R).Perm R') :
    ∃ T'' : GT, T''.id = 0 ∧ Mt trs nodes' idx' T'' 0 n ∧ T''.ids.Nodup ∧ (∀ i ∈ T''.ids, i < nn') ∧ T''.ids.length = nn' ∧ T''.opens.Perm R' := by
  have hmem : (E, b) ∈ T.opens := h5.mem_iff.mpr (by simp)
  obtain ⟨_, _, _, _, _, ro, ri, p1, p2, hrep⟩ := graft E b T 0 n h1 hmem h2
  obtain ⟨T'', f1, f2, f3, f4⟩ := hrep T' nodes' idx' hid hloc hT'
  obtain ⟨new, q1, q2, q3, q4⟩ := hids
  have hro : ro.Perm R := List.Perm.cons_inv (p1.symm.trans h5)
  have full : T''.ids.Perm (T.ids ++ new) := by
    refine f4.trans ?_
    refine (q1.append_right ri).trans ?_
    refine List.Perm.trans ?_ (p2.symm.append_right new)
    simp only [List.cons_append]
    exact (List.perm_append_comm).cons _
  refine ⟨T'', f1.trans h0, f2, ?_, ?_, ?_, ?_⟩
  · rw [full.nodup_iff, List.nodup_append]
    refine ⟨h2, q2, ?_⟩
    intro a ha c hc he
    have := h3 a ha
    have := (q3 c hc).1
    omega
  · intro i hi
    rcases List.mem_append.mp (full.mem_iff.mp hi) with hi | hi
    · have := h3 i hi; omega
    · exact (q3 i hi).2
  · rw [full.length_eq, List.length_append]; omega
  · exact (f3.trans (hro.append_left _)).trans hR

/-- An open entry has positive size and lies below nn. -/
theorem open_facts {trs n nodes idx nn} {T : GT} {E : Entry} {b : Bool} {R : List (Entry × Bool)} (h1 : Mt trs nodes idx T 0 n) (h2 : T.ids.Nodup)
    (h3 : ∀ i ∈ T.ids, i < nn) (h5 : T.opens.Perm ((E, b) :: R)) :
    E.s < E.e ∧ E.e ≤ n ∧ E.i < nn ∧ (nodes E.i).leaf = false ∧ (b = true → CovR trs idx (nodes E.i).b E.s E.e) := by
  have hmem : (E, b) ∈ T.opens := h5.mem_iff.mpr (by simp)
  obtain ⟨_, a2, a3, a4, a5, _⟩ := graft E b T 0 n h1 hmem h2
  exact ⟨a3, a2, h3 _ (open_id_mem T E b hmem), a4, a5⟩

theorem setNode_ne {nodes : ℕ → Node} {i : ℕ} {v : Node} : ∀ j, j ≠ i → setNode nodes i v j = nodes j := by
  intro j h; simp [setNode, h]
theorem setNode_eq {nodes : ℕ → Node} {i : ℕ} {v : Node} : setNode nodes i v i = v := by simp [setNode]

/-- The rearranging leaf and choose steps. -/
theorem CovR_rearr {trs idx idx' b s e} (h : Rearr s e idx idx') (hc : CovR trs idx b s e) : CovR trs idx' b s e := by
  have hl := (h.local (E := ⟨0, s, e⟩) (fun _ => Node.init) (fun _ => Node.init) (fun _ _ => rfl))
  exact CovR_local (E := ⟨0, s, e⟩) (le_refl _) (le_refl _) hl.2.1 hl.2.2 hc

theorem inv_step (trs : ℕ → Tri) (n : ℕ) (s t : St) (h : Inv trs n s) (hs : Step trs n s t) : Inv trs n t := by
  obtain ⟨⟨T, t0, t1, t2, t3, t4, t5⟩, hfresh, hperm, hsizes, hsplits, hdoneN, hnDone, hnoWait, hexits, hactive⟩ := h
  cases hs with
  | exit A B q nodes idx pr nn =>
    simp only [tsizes_mid, tsize] at hsizes
    refine ⟨⟨T, t0, t1, t2, t3, t4, t5.trans ?_⟩, hfresh, hperm, by simp only [tsizes_mid, tsize]; exact hsizes, ?_, hdoneN, fun _ => .inl rfl, ?_, fun _ => rfl, ?_⟩
    · exact ((opens_mid A B .idle _).trans (opens_mid A B .exited _).symm)
    · intro E m hm
      rcases mem_swap (t := .idle) hm with hm | hm
      · cases hm
      · exact hsplits E m hm
    · intro _ hm
      rcases mem_swap (t := .idle) hm with hm | hm
      · cases hm
      · exact hnoWait rfl hm
    · intro _ hq
      exfalso
      -- done, hence everything is processed and the queue is empty
      have hp := hdoneN rfl
      simp only at hp hq hsizes
      have hq0 : qsize q = 0 := by omega
      cases q with
      | nil => exact hq rfl
      | cons E q =>
        have : T.opens.Perm ((E, false) :: (q.map (fun E => (E, false)) ++ (A ++ .idle :: B).flatMap openOf)) := by simpa using t5
        have := (open_facts t1 t2 t3 this).1
        simp [qsize, size] at hq0
        omega
  | wait A B nodes idx pr nn =>
    simp only [tsizes_mid, tsize] at hsizes
    refine ⟨⟨T, t0, t1, t2, t3, t4, t5.trans ?_⟩, hfresh, hperm, by simp only [tsizes_mid, tsize]; exact hsizes, ?_, fun h => (Bool.noConfusion h), ?_, fun h => (Bool.noConfusion h), ?_, fun _ h => absurd rfl h⟩
    · exact ((opens_mid A B .idle _).trans (opens_mid A B .waiting _).symm)
    · intro E m hm
      rcases mem_swap (t := .idle) hm with hm | hm
      · cases hm
      · exact hsplits E m hm
    · intro hp
      rcases hnDone hp with h | h
      · exact .inl h
      · exact .inr (mem_swap' h (by simp))
    · intro hm
      rcases mem_swap (t := .idle) hm with hm | hm
      · cases hm
      · exact hexits hm
  | pop A B E q nodes idx pr nn =>
    simp only [tsizes_mid, tsize, qsize, List.map_cons, List.sum_cons] at hsizes
    refine ⟨⟨T, t0, t1, t2, t3, t4, t5.trans ?_⟩, hfresh, hperm, by simp only [tsizes_mid, tsize, qsize]; omega, ?_, fun h => (Bool.noConfusion h), ?_, fun h => (Bool.noConfusion h), ?_, ?_⟩
    · refine (opens_mid A B .idle _).trans (List.Perm.trans ?_ (opens_mid A B (.popped E) _).symm)
      simp [openOf]
    · intro E m hm
      rcases mem_swap (t := .idle) hm with hm | hm
      · cases hm
      · exact hsplits E m hm
    · intro hp
      rcases hnDone hp with h | h
      · exact .inl h
      · exact .inr (mem_swap' h (by simp))
    · intro hm
      rcases mem_swap (t := .idle) hm with hm | hm
      · cases hm
      · exact hexits hm
    · intro _ _
      exact ⟨.popped E, by simp, trivial⟩
  | recheck A B E q nodes idx pr nn dn =>
    have t5' : T.opens.Perm ((E, false) :: (q.map (fun E => (E, false)) ++ (A ++ B).flatMap openOf)) := t5.trans (opens_mid A B (.popped E) _)
    have hf := (open_facts t1 t2 t3 t5').1
    cases dn with
    | true =>
      exfalso
      have := hdoneN rfl
      simp only [tsizes_mid, tsize, size] at this hsizes
      omega
    | false =>
      simp only [tsizes_mid, tsize] at hsizes
      simp only [Bool.false_eq_true, if_false]
      refine ⟨⟨T, t0, t1, t2, t3, t4, t5.trans ?_⟩, hfresh, hperm, by simp only [tsizes_mid, tsize]; exact hsizes, ?_, fun h => (Bool.noConfusion h), ?_, fun h => (Bool.noConfusion h), ?_, ?_⟩
      · exact ((opens_mid A B (.popped E) _).trans (opens_mid A B (.work E) _).symm)
      · intro E' m hm
        rcases mem_swap (t := .popped E) hm with hm | hm
        · cases hm
        · exact hsplits E' m hm
      · intro hp
        rcases hnDone hp with h | h
        · exact .inl h
        · exact .inr (mem_swap' h (by simp))
      · intro hm
        rcases mem_swap (t := .popped E) hm with hm | hm
        · cases hm
        · exact hexits hm
      · intro _ _
        exact ⟨.work E, by simp, trivial⟩
  | bound A B E q nodes idx pr nn dn =>
    have t5' : T.opens.Perm ((E, false) :: (q.map (fun E => (E, false)) ++ (A ++ B).flatMap openOf)) := t5.trans (opens_mid A B (.work E) _)
    obtain ⟨hlt, hle, hnn, hlf, _⟩ := open_facts t1 t2 t3 t5'
    have hloc : Local E nodes (setNode nodes E.i { nodes E.i with b := rangeBound trs idx E.s E.e (nodes E.i).b }) idx idx := Rearr.rfl'.local _ _ setNode_ne
    have hT' : Mt trs (setNode nodes E.i { nodes E.i with b := rangeBound trs idx E.s E.e (nodes E.i).b }) idx (.opn E true) E.s E.e := by
      refine ⟨rfl, rfl, hlt, by rw [setNode_eq]; exact hlf, fun _ => ?_⟩
      rw [setNode_eq]
      intro j j1 j2
      exact (rangeBound_contains trs (seg idx E.s E.e) (nodes E.i).b).2 _ (mem_seg.mpr ⟨j, j1, j2, rfl⟩)
    have tr := tree_step (nn' := nn) t0 t1 t2 t3 t4 t5' rfl hloc hT' ⟨[], by simp [GT.ids], by simp, by simp, by simp⟩ (R' := q.map (fun E => (E, false)) ++ (A ++ .bounded E :: B).flatMap openOf)
      (by exact (opens_mid A B (.bounded E) _).symm)
    simp only [tsizes_mid, tsize] at hsizes
    refine ⟨tr, ?_, hperm, by simp only [tsizes_mid, tsize]; exact hsizes, ?_, hdoneN, ?_, ?_, ?_, ?_⟩
    · exact fresh_set hfresh hnn (le_refl _)
    · intro E' m hm
      rcases mem_swap (t := .work E) hm with hm | hm
      · cases hm
      · exact hsplits E' m hm
    · intro hp
      rcases hnDone hp with h | h
      · exact .inl h
      · exact .inr (mem_swap' h (by simp))
    · intro hd hm
      rcases mem_swap (t := .work E) hm with hm | hm
      · cases hm
      · exact hnoWait hd hm
    · intro hm
      rcases mem_swap (t := .work E) hm with hm | hm
      · cases hm
      · exact hexits hm
    · intro _ _
      exact ⟨.bounded E, by simp, trivial⟩
  | leaf1 A B E q nodes idx pr nn dn hsz =>
    have t5' : T.opens.Perm ((E, true) :: (q.map (fun E => (E, false)) ++ (A ++ B).flatMap openOf)) := t5.trans (opens_mid A B (.bounded E) _)
    obtain ⟨hlt, hle, hnn, hlf, hcov⟩ := open_facts t1 t2 t3 t5'
    have hloc : Local E nodes (setNode nodes E.i { nodes E.i with leaf := true, s := E.s, e := E.e }) idx idx := Rearr.rfl'.local _ _ setNode_ne
    have hT' : Mt trs (setNode nodes E.i { nodes E.i with leaf := true, s := E.s, e := E.e }) idx (.leaf E.i) E.s E.e := by
      refine ⟨hlt, ?_, ?_, ?_, ?_⟩ <;> rw [setNode_eq]
      exact hcov rfl
    have tr := tree_step (nn' := nn) t0 t1 t2 t3 t4 t5' rfl hloc hT' ⟨[], by simp [GT.ids], by simp, by simp, by simp⟩ (R' := q.map (fun E => (E, false)) ++ (A ++ .leafAdd E :: B).flatMap openOf)
      (by exact (opens_mid A B (.leafAdd E) _).symm)
    simp only [tsizes_mid, tsize] at hsizes
    refine ⟨tr, ?_, hperm, by simp only [tsizes_mid, tsize]; exact hsizes, ?_, hdoneN, ?_, ?_, ?_, ?_⟩
    · exact fresh_set hfresh hnn (le_refl _)
    · intro E' m hm
      rcases mem_swap (t := .bounded E) hm with hm | hm
      · cases hm
      · exact hsplits E' m hm
    · intro hp
      rcases hnDone hp with h | h
      · exact .inl h
      · exact .inr (mem_swap' h (by simp))
    · intro hd hm
      rcases mem_swap (t := .bounded E) hm with hm | hm
      · cases hm
      · exact hnoWait hd hm
    · intro hm
      rcases mem_swap (t := .bounded E) hm with hm | hm
      · cases hm
      · exact hexits hm
    · intro _ _
      exact ⟨.leafAdd E, by simp, trivial⟩
  | leafN A B E q nodes idx pr nn dn i0 i1 i2 hsz h0 h1 h2 hb =>
    have t5' : T.opens.Perm ((E, true) :: (q.map (fun E => (E, false)) ++ (A ++ B).flatMap openOf)) := t5.trans (opens_mid A B (.bounded E) _)
    obtain ⟨hlt, hle, hnn, hlf, hcov⟩ := open_facts t1 t2 t3 t5'
    have hre : Rearr E.s E.e idx i2 := (h0.rearr.trans h1.rearr).trans h2.rearr
    have hloc : Local E nodes (setNode nodes E.i { nodes E.i with leaf := true, s := E.s, e := E.e }) idx i2 := hre.local _ _ setNode_ne
    have hT' : Mt trs (setNode nodes E.i { nodes E.i with leaf := true, s := E.s, e := E.e }) i2 (.leaf E.i) E.s E.e := by
      refine ⟨hlt, ?_, ?_, ?_, ?_⟩ <;> rw [setNode_eq]
      exact CovR_rearr hre (hcov rfl)
    have tr := tree_step (nn' := nn) t0 t1 t2 t3 t4 t5' rfl hloc hT' ⟨[], by simp [GT.ids], by simp, by simp, by simp⟩ (R' := q.map (fun E => (E, false)) ++ (A ++ .leafAdd E :: B).flatMap openOf)
      (by exact (opens_mid A B (.leafAdd E) _).symm)
    simp only [tsizes_mid, tsize] at hsizes
    refine ⟨tr, ?_, (hre.whole hlt.le hle).trans hperm, by simp only [tsizes_mid, tsize]; exact hsizes, ?_, hdoneN, ?_, ?_, ?_, ?_⟩
    · exact fresh_set hfresh hnn (le_refl _)
    · intro E' m hm
      rcases mem_swap (t := .bounded E) hm with hm | hm
      · cases hm
      · exact hsplits E' m hm
    · intro hp
      rcases hnDone hp with h | h
      · exact .inl h
      · exact .inr (mem_swap' h (by simp))
    · intro hd hm
      rcases mem_swap (t := .bounded E) hm with hm | hm
      · cases hm
      · exact hnoWait hd hm
    · intro hm
      rcases mem_swap (t := .bounded E) hm with hm | hm
      · cases hm
      · exact hexits hm
    · intro _ _
      exact ⟨.leafAdd E, by simp, trivial⟩
  | choose A B E q nodes idx pr nn dn i0 i1 i2 i3 bi ba hsz h0 h1 h2 hb hi h3 =>
    have t5' : T.opens.Perm ((E, true) :: (q.map (fun E => (E, false)) ++ (A ++ B).flatMap openOf)) := t5.trans (opens_mid A B (.bounded E) _)
    obtain ⟨hlt, hle, hnn, hlf, hcov⟩ := open_facts t1 t2 t3 t5'
    have hre : Rearr E.s E.e idx i3 := ((h0.rearr.trans h1.rearr).trans h2.rearr).trans h3.rearr
    have hloc : Local E nodes nodes idx i3 := hre.local _ _ (fun _ _ => rfl)
    have hT' : Mt trs nodes i3 (.opn E true) E.s E.e := ⟨rfl, rfl, hlt, hlf, fun _ => CovR_rearr hre (hcov rfl)⟩
    have tr := tree_step (nn' := nn) t0 t1 t2 t3 t4 t5' rfl hloc hT' ⟨[], by simp [GT.ids], by simp, by simp, by simp⟩
      (R' := q.map (fun E => (E, false)) ++ (A ++ .split E (E.s + bi) :: B).flatMap openOf) (by exact (opens_mid A B (.split E (E.s + bi)) _).symm)
    have hpos := (sahBest_spec trs (surfaceArea (nodes E.i).b) (E.e - E.s) (seg i0 E.s E.e) (seg i1 E.s E.e) (seg i2 E.s E.e) (seg_length _ _ _) (seg_length _ _ _) (seg_length _ _ _)).2 bi ba hi
    simp only [tsizes_mid, tsize] at hsizes
    refine ⟨tr, hfresh, (hre.whole hlt.le hle).trans hperm, by simp only [tsizes_mid, tsize]; exact hsizes, ?_, hdoneN, ?_, ?_, ?_, ?_⟩
    · intro E' m hm
      rcases mem_swap (t := .bounded E) hm with hm | hm
      · obtain ⟨rfl, rfl⟩ := Stage.split.inj hm
        omega
      · exact hsplits E' m hm
    · intro hp
      rcases hnDone hp with h | h
      · exact .inl h
      · exact .inr (mem_swap' h (by simp))
    · intro hd hm
      rcases mem_swap (t := .bounded E) hm with hm | hm
      · cases hm
      · exact hnoWait hd hm
    · intro hm
      rcases mem_swap (t := .bounded E) hm with hm | hm
      · cases hm
      · exact hexits hm
    · intro _ _
      exact ⟨.split E (E.s + bi), by simp, trivial⟩
  | push A B E m q nodes idx pr nn dn ths' hw =>
    have t5' : T.opens.Perm ((E, true) :: (q.map (fun E => (E, false)) ++ (A ++ B).flatMap openOf)) := t5.trans (opens_mid A B (.split E m) _)
    obtain ⟨hlt, hle, hnn, hlf, hcov⟩ := open_facts t1 t2 t3 t5'
    obtain ⟨hm1, hm2⟩ := hsplits E m (by simp)
    obtain ⟨w1, w2, w3, w4⟩ := wake1_facts hw
    have hloc : Local E nodes (setNode nodes E.i { nodes E.i with c1 := nn, c2 := nn + 1 }) idx idx := Rearr.rfl'.local _ _ setNode_ne
    have fr := hfresh
    have hnn' : E.i < nn := hnn
    have hT' : Mt trs (setNode nodes E.i { nodes E.i with c1 := nn, c2 := nn + 1 }) idx (.node E.i (.opn ⟨nn, E.s, m⟩ false) (.opn ⟨nn + 1, m, E.e⟩ false)) E.s E.e := by
      refine ⟨m, hm1, hm2, ?_, ?_, ?_, ?_, ?_, ?_⟩
      · rw [setNode_eq]; exact hlf
      · rw [setNode_eq]; rfl
      · rw [setNode_eq]; rfl
      · rw [setNode_eq]; exact hcov rfl
      · refine ⟨rfl, rfl, hm1, ?_, fun h => by cases h⟩
        rw [setNode_ne _ (by simp only; omega)]; exact fr _ (by simp)
      · refine ⟨rfl, rfl, hm2, ?_, fun h => by cases h⟩
        rw [setNode_ne _ (by simp only; omega)]; exact fr _ (by simp)
    have tr := tree_step (nn' := nn + 2) t0 t1 t2 t3 t4 t5' rfl hloc hT' ⟨[nn, nn + 1], by simp [GT.ids], by simp, by simp, by simp⟩
      (R' := (q ++ [(⟨nn, E.s, m⟩ : Entry), ⟨nn + 1, m, E.e⟩]).map (fun E => (E, false)) ++ ths'.flatMap openOf) (by
        rw [w1]
        refine List.Perm.trans ?_ (opens_mid A B .idle _).symm
        simp only [GT.opens, openOf, List.map_append, List.nil_append, List.map_cons, List.map_nil]
        rw [← List.append_assoc]
        exact List.perm_append_comm.append_right _)
    simp only [tsizes_mid, tsize, size] at hsizes
    have w2' : tsizes ths' = tsizes A + tsizes B := by rw [w2, tsizes_mid]; simp [tsize]
    refine ⟨tr, ?_, hperm, ?_, ?_, hdoneN, ?_, ?_, ?_, ?_⟩
    · exact fresh_set hfresh hnn (Nat.le_add_right _ _)
    · simp only [w2', qsize, List.map_append, List.sum_append, List.map_cons, List.map_nil, List.sum_cons, List.sum_nil, size]
      simp only [qsize] at hsizes
      omega
    · intro E' m' hm
      rcases w3 _ hm with hm | hm
      · rcases mem_swap (t := .split E m) hm with hm | hm
        · cases hm
        · exact hsplits E' m' hm
      · cases hm
    · intro hp
      rcases hnDone hp with h | h
      · exact .inl h
      · exact .inr (w4 _ (mem_swap' h (by simp)) (by simp))
    · intro hd hm
      rcases w3 _ hm with hm | hm
      · rcases mem_swap (t := .split E m) hm with hm | hm
        · cases hm
        · exact hnoWait hd hm
      · cases hm
    · intro hm
      rcases w3 _ hm with hm | hm
      · rcases mem_swap (t := .split E m) hm with hm | hm
        · cases hm
        · exact hexits hm
      · cases hm
    · intro _ _
      exact ⟨.idle, w4 _ (by simp) (by simp), trivial⟩
  | add A B E q nodes idx pr nn dn =>
    simp only [tsizes_mid, tsize, size] at hsizes
    refine ⟨⟨T, t0, t1, t2, t3, t4, t5.trans ?_⟩, hfresh, hperm, by simp only [tsizes_mid, tsize]; omega, ?_, ?_, ?_, ?_, ?_, ?_⟩
    · exact ((opens_mid A B (.leafAdd E) _).trans (opens_mid A B .leafChk _).symm)
    · intro E' m hm
      rcases mem_swap (t := .leafAdd E) hm with hm | hm
      · cases hm
      · exact hsplits E' m hm
    · intro hd
      have := hdoneN hd
      simp only at this ⊢
      omega
    · intro _
      exact .inr (by simp)
    · intro hd hm
      rcases mem_swap (t := .leafAdd E) hm with hm | hm
      · cases hm
      · exact hnoWait hd hm
    · intro hm
      rcases mem_swap (t := .leafAdd E) hm with hm | hm
      · cases hm
      · exact hexits hm
    · intro _ _
      exact ⟨.leafChk, by simp, trivial⟩
  | chkNo A B q nodes idx pr nn dn hne =>
    simp only [tsizes_mid, tsize] at hsizes
    refine ⟨⟨T, t0, t1, t2, t3, t4, t5.trans ?_⟩, hfresh, hperm, by simp only [tsizes_mid, tsize]; omega, ?_, hdoneN, fun h => absurd h hne, ?_, ?_, ?_⟩
    · exact ((opens_mid A B .leafChk _).trans (opens_mid A B .idle _).symm)
    · intro E' m hm
      rcases mem_swap (t := .leafChk) hm with hm | hm
      · cases hm
      · exact hsplits E' m hm
    · intro hd hm
      rcases mem_swap (t := .leafChk) hm with hm | hm
      · cases hm
      · exact hnoWait hd hm
    · intro hm
      rcases mem_swap (t := .leafChk) hm with hm | hm
      · cases hm
      · exact hexits hm
    · intro _ _
      exact ⟨.idle, by simp, trivial⟩
  | chkYes A B q nodes idx pr nn dn heq =>
    simp only [tsizes_mid, tsize] at hsizes
    refine ⟨⟨T, t0, t1, t2, t3, t4, t5.trans ?_⟩, hfresh, hperm, by simp only [tsizes_wakeAll, tsizes_mid, tsize]; omega, ?_, fun _ => heq, fun _ => .inl rfl, ?_, fun _ => rfl, ?_⟩
    · simp only [openOf_wakeAll]
      exact ((opens_mid A B .leafChk _).trans (opens_mid A B .idle _).symm)
    · intro E' m hm
      simp only [wakeAll, List.mem_map] at hm
      obtain ⟨x, hx, he⟩ := hm
      cases x <;> simp [wake] at he
      obtain ⟨rfl, rfl⟩ := he
      rcases mem_swap (t := .leafChk) hx with hm | hm
      · cases hm
      · exact hsplits _ _ hm
    · intro _ hm
      simp only [wakeAll, List.mem_map] at hm
      obtain ⟨x, hx, he⟩ := hm
      cases x <;> simp [wake] at he
    · intro _ _
      refine ⟨.idle, ?_, trivial⟩
      simp only [wakeAll, List.mem_map]
      exact ⟨.idle, by simp, rfl⟩

theorem inv_reach {trs : ℕ → Tri} {n k : ℕ} (hn : 1 ≤ n) {s : St} (h : Reach trs n k s) : Inv trs n s := by
  induction h with
  | init => exact inv_init trs n k hn
  | step s t _ hs ih => exact inv_step trs n s t ih hs

/-! ### Termination -/

/-- Remaining work. -/
def wE (N : ℕ) (E : Entry) : ℕ := (N + 10) * (2 * size E - 1)
def wT (N : ℕ) : Stage → ℕ
  | .idle => 1
  | .waiting => 0
  | .exited => 0
  | .popped E => wE N E
  | .work E => wE N E - 1
  | .bounded E => wE N E - 2
  | .split E _ => wE N E - 3
  | .leafAdd _ => N + 3
  | .leafChk => N + 2
def wTs (N : ℕ) (ts : List Stage) : ℕ := (ts.map (wT N)).sum
def mu (st : St) : ℕ := (st.queue.map (wE st.ths.length)).sum + wTs st.ths.length st.ths

theorem wTs_mid (N : ℕ) (A B : List Stage) (t : Stage) : wTs N (A ++ t :: B) = wTs N A + wT N t + wTs N B := by simp [wTs]; omega

theorem wTs_wakeAll (N : ℕ) (ts : List Stage) : wTs N (wakeAll ts) ≤ wTs N ts + ts.length := by
  induction ts with
  | nil => simp [wTs, wakeAll]
  | cons t ts ih =>
    simp only [wTs, wakeAll, List.map_cons, List.sum_cons, List.length_cons, List.map_map] at ih ⊢
    have : wT N (wake t) ≤ wT N t + 1 := by cases t <;> simp [wT, wake]
    simp only [Function.comp_def] at ih ⊢
    omega

theorem wTs_wake1 (N : ℕ) {ts ts' : List Stage} (h : Wake1 ts ts') : wTs N ts' ≤ wTs N ts + 1 ∧ ts'.length = ts.length := by
  rcases h with ⟨_, rfl⟩ | ⟨a, b, rfl, rfl⟩
  · simp
  · refine ⟨?_, by simp⟩
    simp only [wTs_mid, wT]
    omega

theorem mid_length (A B : List Stage) (t t' : Stage) : (A ++ t :: B).length = (A ++ t' :: B).length := by simp

theorem wE_ge (N : ℕ) (E : Entry) (h : E.s < E.e) : N + 10 ≤ wE N E := by
  unfold wE size
  have : 1 ≤ 2 * (E.e - E.s) - 1 := by omega
  exact Nat.le_mul_of_pos_right _ this

theorem wE_split (N a b c : ℕ) (i j k : ℕ) (h1 : a < b) (h2 : b < c) : wE N ⟨i, a, b⟩ + wE N ⟨j, b, c⟩ + (N + 10) = wE N ⟨k, a, c⟩ := by
  unfold wE size
  have e : 2 * (c - a) - 1 = (2 * (b - a) - 1) + (2 * (c - b) - 1) + 1 := by omega
  simp only [e]
  ring

theorem mu_step (trs : ℕ → Tri) (n : ℕ) (s t : St) (h : Inv trs n s) (hs : Step trs n s t) : mu t < mu s ∧ t.ths.length = s.ths.length := by
  obtain ⟨⟨T, t0, t1, t2, t3, t4, t5⟩, _, _, _, hsplits, _⟩ := h
  cases hs with
  | exit A B q nodes idx pr nn =>
    refine ⟨?_, by simp⟩
    simp only [mu, mid_length A B .exited .idle, wTs_mid, wT]; omega
  | wait A B nodes idx pr nn =>
    refine ⟨?_, by simp⟩
    simp only [mu, mid_length A B .waiting .idle, wTs_mid, wT]; omega
  | pop A B E q nodes idx pr nn =>
    refine ⟨?_, by simp⟩
    simp only [mu, mid_length A B (.popped E) .idle, wTs_mid, wT, List.map_cons, List.sum_cons]; omega
  | recheck A B E q nodes idx pr nn dn =>
    have t5' : T.opens.Perm ((E, false) :: (q.map (fun E => (E, false)) ++ (A ++ B).flatMap openOf)) := t5.trans (opens_mid A B (.popped E) _)
    have hg := wE_ge (A ++ Stage.popped E :: B).length E (open_facts t1 t2 t3 t5').1
    refine ⟨?_, by simp⟩
    simp only [mu]
    rw [mid_length A B _ (.popped E)]
    simp only [wTs_mid]
    cases dn <;> simp only [wT, Bool.false_eq_true, if_false, if_true] <;> omega
  | bound A B E q nodes idx pr nn dn =>
    have t5' : T.opens.Perm ((E, false) :: (q.map (fun E => (E, false)) ++ (A ++ B).flatMap openOf)) := t5.trans (opens_mid A B (.work E) _)
    have hg := wE_ge (A ++ Stage.work E :: B).length E (open_facts t1 t2 t3 t5').1
    refine ⟨?_, by simp⟩
    simp only [mu, mid_length A B (.bounded E) (.work E), wTs_mid, wT]; omega
  | leaf1 A B E q nodes idx pr nn dn hsz =>
    have t5' : T.opens.Perm ((E, true) :: (q.map (fun E => (E, false)) ++ (A ++ B).flatMap openOf)) := t5.trans (opens_mid A B (.bounded E) _)
    have hg := wE_ge (A ++ Stage.bounded E :: B).length E (open_facts t1 t2 t3 t5').1
    refine ⟨?_, by simp⟩
    simp only [mu, mid_length A B (.leafAdd E) (.bounded E), wTs_mid, wT]; omega
  | leafN A B E q nodes idx pr nn dn i0 i1 i2 hsz h0 h1 h2 hb =>
    have t5' : T.opens.Perm ((E, true) :: (q.map (fun E => (E, false)) ++ (A ++ B).flatMap openOf)) := t5.trans (opens_mid A B (.bounded E) _)
    have hg := wE_ge (A ++ Stage.bounded E :: B).length E (open_facts t1 t2 t3 t5').1
    refine ⟨?_, by simp⟩
    simp only [mu, mid_length A B (.leafAdd E) (.bounded E), wTs_mid, wT]; omega
  | choose A B E q nodes idx pr nn dn i0 i1 i2 i3 bi ba hsz h0 h1 h2 hb hi h3 =>
    have t5' : T.opens.Perm ((E, true) :: (q.map (fun E => (E, false)) ++ (A ++ B).flatMap openOf)) := t5.trans (opens_mid A B (.bounded E) _)
    have hg := wE_ge (A ++ Stage.bounded E :: B).length E (open_facts t1 t2 t3 t5').1
    refine ⟨?_, by simp⟩
    simp only [mu, mid_length A B (.split E (E.s + bi)) (.bounded E), wTs_mid, wT]; omega
  | push A B E m q nodes idx pr nn dn ths' hw =>
    have t5' : T.opens.Perm ((E, true) :: (q.map (fun E => (E, false)) ++ (A ++ B).flatMap openOf)) := t5.trans (opens_mid A B (.split E m) _)
    have hg := wE_ge (A ++ Stage.split E m :: B).length E (open_facts t1 t2 t3 t5').1
    obtain ⟨hm1, hm2⟩ := hsplits E m (by simp)
    obtain ⟨w1, w2⟩ := wTs_wake1 (A ++ Stage.split E m :: B).length hw
    have hl : ths'.length = (A ++ Stage.split E m :: B).length := by rw [w2]; simp
    refine ⟨?_, hl⟩
    have hsp := wE_split (A ++ Stage.split E m :: B).length E.s m E.e nn (nn + 1) E.i hm1 hm2
    have hEe : wE (A ++ Stage.split E m :: B).length ⟨E.i, E.s, E.e⟩ = wE (A ++ Stage.split E m :: B).length E := rfl
    simp only [mu, hl, List.map_append, List.sum_append, List.map_cons, List.map_nil, List.sum_cons, List.sum_nil]
    rw [wTs_mid] at w1 ⊢
    simp only [wT] at w1 ⊢
    omega
  | add A B E q nodes idx pr nn dn =>
    refine ⟨?_, by simp⟩
    simp only [mu, mid_length A B .leafChk (.leafAdd E), wTs_mid, wT]; omega
  | chkNo A B q nodes idx pr nn dn hne =>
    refine ⟨?_, by simp⟩
    simp only [mu, mid_length A B .idle .leafChk, wTs_mid, wT]; omega
  | chkYes A B q nodes idx pr nn dn heq =>
    have hl : (wakeAll (A ++ Stage.idle :: B)).length = (A ++ Stage.leafChk :: B).length := by simp [wakeAll]
    refine ⟨?_, hl⟩
    have := wTs_wakeAll (A ++ Stage.leafChk :: B).length (A ++ Stage.idle :: B)
    have hl2 : (A ++ Stage.idle :: B).length = (A ++ Stage.leafChk :: B).length := by simp
    simp only [mu, hl]
    rw [hl2] at this
    rw [wTs_mid] at this ⊢
    simp only [wT] at this ⊢
    omega

/-- C36. Construction terminates under every interleaving: there is no infinite execution; more precisely, an execution has at most `mu (init)` steps. -/
theorem C36_terminates (trs : ℕ → Tri) (n k : ℕ) (hn : 1 ≤ n) (f : ℕ → St) (h0 : f 0 = St.init n k) (len : ℕ) (hs : ∀ i, i < len → Step trs n (f i) (f (i + 1))) :
    len ≤ mu (St.init n k) := by
  have : ∀ i, i ≤ len → Reach trs n k (f i) ∧ mu (f i) + i ≤ mu (St.init n k) := by
    intro i
    induction i with
    | zero => intro _; rw [h0]; exact ⟨.init, by simp⟩
    | succ i ih =>
      intro hi
      obtain ⟨hr, hm⟩ := ih (by omega)
      have hst := hs i (by omega)
      have := (mu_step trs n _ _ (inv_reach hn hr) hst).1
      exact ⟨.step _ _ hr hst, by omega⟩
  have := (this len (le_refl _)).2
  omega

/-! ### No deadlock -/

theorem sorts_exists (trs : ℕ → Tri) (s e ax : ℕ) (idx : ℕ → ℕ) : ∃ idx', Sorts trs s e ax idx idx' := by
  let L := (seg idx s e).mergeSort (fun a b => decide (coord (trs a).c ax ≤ coord (trs b).c ax))
  have hL : L.Perm (seg idx s e) := List.mergeSort_perm _ _
  have hlen : L.length = e - s := by rw [hL.length_eq, seg_length]
  let idx' : ℕ → ℕ := fun j => if h : s ≤ j ∧ j < e then L[j - s]'(by omega) else idx j
  have hseg : seg idx' s e = L := by
    apply List.ext_getElem
    · rw [seg_length, hlen]
    · intro i h1 h2
      simp only [seg, List.getElem_map, List.getElem_range', idx']
      rw [dif_pos ⟨by omega, by omega⟩]
      congr 1
      omega
  refine ⟨idx', ?_, by rw [hseg]; exact hL, ?_⟩
  · intro j hj
    simp only [idx']
    rw [dif_neg hj]
  · rw [hseg]
    have : L.Pairwise (fun a b => decide (coord (trs a).c ax ≤ coord (trs b).c ax) = true) := by
      apply List.pairwise_mergeSort
      · intro a b c h1 h2
        simp only [decide_eq_true_eq] at *
        exact le_trans h1 h2
      · intro a b
        simp only [Bool.or_eq_true, decide_eq_true_eq]
        exact le_total _ _
    exact this.imp (fun h => not_lt.mpr (by simpa using h))

theorem wake1_exists (ts : List Stage) : ∃ ts', Wake1 ts ts' := by
  by_cases h : Stage.waiting ∈ ts
  · obtain ⟨a, b, rfl⟩ := List.append_of_mem h
    exact ⟨_, .inr ⟨a, b, rfl, rfl⟩⟩
  · exact ⟨ts, .inl ⟨h, rfl⟩⟩

/-- C36. No deadlock (the condition variable never loses the last wake-up): with fewer than 1e10 triangles, as long as some thread has not returned, some thread can move. -/
theorem C36_no_stuck (trs : ℕ → Tri) (n k : ℕ) (hn : 1 ≤ n) (hlt : n < 10 ^ 10) (s : St) (hr : Reach trs n k s) (hne : ∃ t ∈ s.ths, t ≠ Stage.exited) : ∃ s', Step trs n s s' := by
  have hinv := inv_reach hn hr
  obtain ⟨⟨T, t0, t1, t2, t3, t4, t5⟩, hfresh, hperm, hsizes, hsplits, hdoneN, hnDone, hnoWait, hexits, hactive⟩ := hinv
  -- an active thread
  have hact : ∃ t ∈ s.ths, Active t := by
    by_contra hno
    have hall : ∀ t ∈ s.ths, t = .waiting ∨ t = .exited := by
      intro t ht
      have := fun ha => hno ⟨t, ht, ha⟩
      cases t <;> simp [Active] at this ⊢
    obtain ⟨t, ht, hte⟩ := hne
    have htw : t = .waiting := (hall t ht).resolve_right hte
    have hdn : s.done = false := by
      cases hd : s.done with
      | false => rfl
      | true => exact absurd (htw ▸ ht) (hnoWait hd)
    have hq : s.queue = [] := by
      by_contra hq
      exact hno (hactive (List.ne_nil_of_mem ht) hq)
    have hz : tsizes s.ths = 0 := by
      unfold tsizes
      apply List.sum_eq_zero
      intro x hx
      obtain ⟨t, ht, rfl⟩ := List.mem_map.mp hx
      rcases hall t ht with rfl | rfl <;> rfl
    have hp : s.pr = n := by rw [hq, hz] at hsizes; simpa [qsize] using hsizes
    rcases hnDone hp with h | h
    · rw [hdn] at h; cases h
    · rcases hall _ h with h | h <;> cases h
  obtain ⟨t, ht, ha⟩ := hact
  obtain ⟨q, nodes, idx, pr, nn, dn, ths⟩ := s
  simp only at ht
  obtain ⟨A, B, rfl⟩ := List.append_of_mem ht
  cases t with
  | idle =>
    cases dn with
    | true => exact ⟨_, .exit A B q nodes idx pr nn⟩
    | false =>
      cases q with
      | nil => exact ⟨_, .wait A B nodes idx pr nn⟩
      | cons E q => exact ⟨_, .pop A B E q nodes idx pr nn⟩
  | waiting => exact absurd ha (by simp [Active])
  | exited => exact absurd ha (by simp [Active])
  | popped E => exact ⟨_, .recheck A B E q nodes idx pr nn dn⟩
  | work E => exact ⟨_, .bound A B E q nodes idx pr nn dn⟩
  | bounded E =>
    by_cases hsz : E.e - E.s < 2
    · exact ⟨_, .leaf1 A B E q nodes idx pr nn dn hsz⟩
    · obtain ⟨i0, h0⟩ := sorts_exists trs E.s E.e 0 idx
      obtain ⟨i1, h1⟩ := sorts_exists trs E.s E.e 1 i0
      obtain ⟨i2, h2⟩ := sorts_exists trs E.s E.e 2 i1
      by_cases hb : (sahBest trs (surfaceArea (nodes E.i).b) (seg i0 E.s E.e) (seg i1 E.s E.e) (seg i2 E.s E.e)).b > (E.e - E.s : ℕ)
      · exact ⟨_, .leafN A B E q nodes idx pr nn dn i0 i1 i2 hsz h0 h1 h2 hb⟩
      · have hspec := sahBest_spec trs (surfaceArea (nodes E.i).b) (E.e - E.s) (seg i0 E.s E.e) (seg i1 E.s E.e) (seg i2 E.s E.e) (seg_length _ _ _) (seg_length _ _ _) (seg_length _ _ _)
        cases hi : (sahBest trs (surfaceArea (nodes E.i).b) (seg i0 E.s E.e) (seg i1 E.s E.e) (seg i2 E.s E.e)).ia with
        | none =>
          exfalso
          apply hb
          rw [hspec.1 hi]
          have t5' : T.opens.Perm ((E, true) :: (q.map (fun E => (E, false)) ++ (A ++ B).flatMap openOf)) := t5.trans (opens_mid A B (.bounded E) _)
          have hle := (open_facts t1 t2 t3 t5').2.1
          have : E.e - E.s < 10 ^ 10 := by omega
          have h2 : ((E.e - E.s : ℕ) : ℚ) < ((10 ^ 10 : ℕ) : ℚ) := by exact_mod_cast this
          unfold Inf
          push_cast at h2 ⊢
          linarith
        | some p =>
          obtain ⟨bi, ba⟩ := p
          obtain ⟨i3, h3⟩ := sorts_exists trs E.s E.e ba i2
          exact ⟨_, .choose A B E q nodes idx pr nn dn i0 i1 i2 i3 bi ba hsz h0 h1 h2 hb hi h3⟩
  | leafAdd E => exact ⟨_, .add A B E q nodes idx pr nn dn⟩
  | leafChk =>
    by_cases hp : pr = n
    · exact ⟨_, .chkYes A B q nodes idx pr nn dn hp⟩
    · exact ⟨_, .chkNo A B q nodes idx pr nn dn hp⟩
  | split E m =>
    obtain ⟨ts', hw⟩ := wake1_exists (A ++ Stage.idle :: B)
    exact ⟨_, .push A B E m q nodes idx pr nn dn ts' hw⟩

/-! ### Result -/

theorem Mt_holds {trs nodes idx} : ∀ T s e, T.opens = [] → Mt trs nodes idx T s e → Holds nodes idx trs T.id (seg idx s e)
  | .opn _ _, _, _, h, _ => by simp [GT.opens] at h
  | .leaf i, s, e, _, ⟨h1, h2, h3, h4, h5⟩ => by
    subst h3 h4
    refine .leaf i h2 h1 ?_
    intro k hk
    obtain ⟨j, j1, j2, rfl⟩ := mem_seg.mp hk
    exact h5 j j1 j2
  | .node i l r, s, e, ho, ⟨m, h1, h2, h3, h4, h5, h6, h7, h8⟩ => by
    simp only [GT.opens, List.append_eq_nil_iff] at ho
    have a := Mt_holds l s m ho.1 h7
    have b := Mt_holds r m e ho.2 h8
    rw [← h4] at a
    rw [← h5] at b
    have hap := seg_append idx h1.le h2.le
    rw [hap]
    refine .inner i _ _ h3 a b ?_
    intro k hk
    rw [← hap] at hk
    obtain ⟨j, j1, j2, rfl⟩ := mem_seg.mp hk
    exact h6 j j1 j2

/-- C36. Memory safety of construction: in every reachable state the node counter does not exceed the allocated 2n-1 nodes, every queued entry refers to an allocated node and
    a non-empty range inside [0, n), and the index array is a permutation of the triangles. -/
theorem C36_in_range (trs : ℕ → Tri) (n k : ℕ) (hn : 1 ≤ n) (s : St) (hr : Reach trs n k s) :
    s.nn ≤ 2 * n - 1 ∧ (∀ E, E ∈ s.queue ∨ Stage.work E ∈ s.ths ∨ Stage.bounded E ∈ s.ths ∨ (∃ m, Stage.split E m ∈ s.ths) → E.i < s.nn ∧ E.s < E.e ∧ E.e ≤ n) ∧
    (seg s.idx 0 n).Perm (List.range n) := by
  obtain ⟨⟨T, t0, t1, t2, t3, t4, t5⟩, hfresh, hperm, _⟩ := inv_reach hn hr
  refine ⟨?_, ?_, hperm⟩
  · have := ids_le T 0 n t1
    omega
  · intro E hE
    have key : ∀ b, (E, b) ∈ T.opens → E.i < s.nn ∧ E.s < E.e ∧ E.e ≤ n := by
      intro b hb
      obtain ⟨_, a2, a3, _⟩ := graft E b T 0 n t1 hb t2
      exact ⟨t3 _ (open_id_mem T E b hb), a3, a2⟩
    have mk : ∀ t b, t ∈ s.ths → (E, b) ∈ openOf t → E.i < s.nn ∧ E.s < E.e ∧ E.e ≤ n := by
      intro t b h1 h2
      exact key b (t5.mem_iff.mpr (List.mem_append_right _ (List.mem_flatMap.mpr ⟨t, h1, h2⟩)))
    rcases hE with h | h | h | ⟨m, h⟩
    · exact key false (t5.mem_iff.mpr (List.mem_append_left _ (List.mem_map.mpr ⟨E, h, rfl⟩)))
    · exact mk _ false h (by simp [openOf])
    · exact mk _ true h (by simp [openOf])
    · exact mk _ true h (by simp [openOf])

/-- C36. When the builder threads have returned (at least one thread was started), whatever the interleaving and the behaviour of the unstable sort: the nodes form a tree whose
    leaves hold every triangle exactly once, and the bound of every node contains all triangles below it. -/
theorem C36_built (trs : ℕ → Tri) (n k : ℕ) (hn : 1 ≤ n) (s : St) (hr : Reach trs n k s) (hne : s.ths ≠ []) (hex : ∀ t ∈ s.ths, t = Stage.exited) :
    ∃ L, Holds s.nodes s.idx trs 0 L ∧ L.Perm (List.range n) := by
  obtain ⟨⟨T, t0, t1, t2, t3, t4, t5⟩, hfresh, hperm, hsizes, hsplits, hdoneN, hnDone, hnoWait, hexits, hactive⟩ := inv_reach hn hr
  obtain ⟨t, ht⟩ := List.exists_mem_of_ne_nil _ hne
  have hd := hexits (hex t ht ▸ ht)
  have hp := hdoneN hd
  have hq : s.queue = [] := by
    cases hq : s.queue with
    | nil => rfl
    | cons E q =>
      exfalso
      rw [hq] at t5 hsizes
      have t5' : T.opens.Perm ((E, false) :: (q.map (fun E => (E, false)) ++ s.ths.flatMap openOf)) := by simpa using t5
      have := (open_facts t1 t2 t3 t5').1
      simp only [qsize, List.map_cons, List.sum_cons, size] at hsizes
      omega
  have ho : T.opens = [] := by
    have : s.ths.flatMap openOf = [] := by
      rw [List.flatMap_eq_nil_iff]; intro t ht; rw [hex t ht]; rfl
    rw [hq, this] at t5
    exact List.Perm.eq_nil t5
  have := Mt_holds T 0 n ho t1
  rw [t0] at this
  exact ⟨_, this, hperm⟩

theorem reach_length {trs : ℕ → Tri} {n k : ℕ} (hn : 1 ≤ n) {s : St} (h : Reach trs n k s) : s.ths.length = k := by
  induction h with
  | init => simp [St.init]
  | step s t hr hs ih => rw [(mu_step trs n s t (inv_reach hn hr) hs).2, ih]

/-- C36, putting it together: with at least one thread and 1 ≤ n < 1e10 triangles, from every reachable state construction can be completed, every maximal
    execution is finite (`C36_terminates`), and its last state carries a correct tree. -/
theorem C36_total (trs : ℕ → Tri) (n k : ℕ) (hn : 1 ≤ n) (hlt : n < 10 ^ 10) (hk : 1 ≤ k) (s : St) (hr : Reach trs n k s) (hstuck : ¬ ∃ s', Step trs n s s') :
    ∃ L, Holds s.nodes s.idx trs 0 L ∧ L.Perm (List.range n) := by
  have hl := reach_length hn hr
  refine C36_built trs n k hn s hr (fun h => by rw [h] at hl; simp at hl; omega) ?_
  intro t ht
  by_contra hne
  exact hstuck (C36_no_stuck trs n k hn hlt s hr ⟨t, ht, hne⟩)

/-- Remark: with no thread at all (std::thread::hardware_concurrency() may return 0) nothing is built: the initial state is final and its root is neither a leaf nor
    has valid children. -/
theorem C36_remark_no_threads (trs : ℕ → Tri) (n : ℕ) : (¬ ∃ s', Step trs n (St.init n 0) s') ∧ ¬ ∃ L, Holds (St.init n 0).nodes (St.init n 0).idx trs 0 L := by
  constructor
  · rintro ⟨s', h⟩
    generalize hs : St.init n 0 = s at h
    have : s.ths = [] := by rw [← hs]; rfl
    cases h <;> simp at this
  · rintro ⟨L, h⟩
    have gen : ∀ i L, Holds (St.init n 0).nodes (St.init n 0).idx trs i L → False := by
      intro i L h
      induction h with
      | leaf i h _ _ => simp [St.init, Node.init] at h
      | inner i L1 L2 _ _ _ _ ih1 _ => exact ih1
    exact gen 0 L h

/-- Non-vacuity: a run of one thread over one triangle reaches a final state. -/
example (trs : ℕ → Tri) : ∃ s, Reach trs 1 1 s ∧ s.ths = [Stage.exited] := by
  have r0 : Reach trs 1 1 (St.init 1 1) := .init
  have r1 := Reach.step _ _ r0 (.pop [] [] ⟨0, 0, 1⟩ [] _ _ 0 1)
  have r2 := Reach.step _ _ r1 (.recheck [] [] ⟨0, 0, 1⟩ [] _ _ 0 1 false)
  have r3 := Reach.step _ _ r2 (.bound [] [] ⟨0, 0, 1⟩ [] _ _ 0 1 false)
  have r4 := Reach.step _ _ r3 (.leaf1 [] [] ⟨0, 0, 1⟩ [] _ _ 0 1 false (by decide))
  have r5 := Reach.step _ _ r4 (.add [] [] ⟨0, 0, 1⟩ [] _ _ 0 1 false)
  have r6 := Reach.step _ _ r5 (.chkYes [] [] [] _ _ _ 1 false rfl)
  have r7 := Reach.step _ _ r6 (.exit [] [] [] _ _ _ 1)
  exact ⟨_, r7, rfl⟩

end LM.Bvh
