import Verif.Props.C38_Geom
import Verif.Props.C89_Query
namespace LM.Bvh
open LM LM.Bound

/-! ### The builder makes a chain of the triangles of `C38_Geom`, whatever the interleaving -/

def opensOf (s : St) : List (Entry × Bool) := s.queue.map (fun E => (E, false)) ++ s.ths.flatMap openOf

theorem opens_sub : ∀ T : GT, (T.opens.map (fun x => x.1.i)).Sublist T.ids
  | .opn E b => by simp [GT.opens, GT.ids]
  | .leaf i => by simp [GT.opens]
  | .node i l r => by
    simp only [GT.opens, GT.ids, List.map_append]
    exact (List.Sublist.append (opens_sub l) (opens_sub r)).cons i

theorem opens_nodup {trs n s} (h : Inv trs n s) : ((opensOf s).map (fun x => x.1.i)).Nodup ∧ (∀ x ∈ opensOf s, x.1.i < s.nn) ∧ 0 < s.nn := by
  obtain ⟨⟨T, t0, t1, t2, t3, t4, t5⟩, _⟩ := h
  refine ⟨((t5.map (fun x => x.1.i)).nodup_iff).mp ((opens_sub T).nodup t2), ?_, ?_⟩
  · intro x hx
    exact t3 _ (open_id_mem T x.1 x.2 (t5.mem_iff.mpr hx))
  · refine t3 0 ?_
    rw [← t0]
    cases T <;> simp [GT.id, GT.ids]

theorem nodup_other {X Y : List (Entry × Bool)} {E : Entry} {b : Bool} {x : Entry × Bool} (h : ((X ++ (E, b) :: Y).map (fun x => x.1.i)).Nodup) (hx : x ∈ X ∨ x ∈ Y) : x.1.i ≠ E.i := by
  rw [List.map_append, List.map_cons, List.nodup_append] at h
  obtain ⟨_, h2, h3⟩ := h
  rw [List.nodup_cons] at h2
  rcases hx with hx | hx
  · exact h3 _ (List.mem_map_of_mem hx) _ (by simp)
  · exact fun he => h2.1 (he ▸ List.mem_map_of_mem (f := fun x : Entry × Bool => x.1.i) hx)

/-- `rg` tells the range of triangles every node was made for: a single triangle, or all from some point on; inner nodes split off the first. -/
structure Deep (n : ℕ) (s : St) (rg : ℕ → ℕ × ℕ) : Prop where
  idx : s.idx = fun i => i
  root : rg 0 = (0, n)
  opn : ∀ x ∈ opensOf s, rg x.1.i = (x.1.s, x.1.e) ∧ (x.1.e = n ∨ x.1.e = x.1.s + 1) ∧
    (s.nodes x.1.i).b = if x.2 then rangeBound deepTri (fun i => i) x.1.s x.1.e dflt else dflt
  spl : ∀ E m, Stage.split E m ∈ s.ths → m = E.s + 1 ∧ E.e = n
  leaf : ∀ i, (s.nodes i).leaf = true → rg i = ((s.nodes i).s, (s.nodes i).e) ∧ (s.nodes i).e = (s.nodes i).s + 1
  push : ∀ i, (s.nodes i).c2 ≠ 0 → ∃ a, rg i = (a, n) ∧ rg (s.nodes i).c1 = (a, a + 1) ∧ rg (s.nodes i).c2 = (a + 1, n) ∧ (s.nodes i).c1 < s.nn ∧ (s.nodes i).c2 < s.nn
  fresh : ∀ j, s.nn ≤ j → s.nodes j = Node.init

theorem Deep.mono {n : ℕ} {s t : St} {rg : ℕ → ℕ × ℕ} (h : Deep n s rg) (hi : t.idx = s.idx) (hn : t.nodes = s.nodes) (hnn : t.nn = s.nn) (ho : ∀ x ∈ opensOf t, x ∈ opensOf s)
    (hs : ∀ E m, Stage.split E m ∈ t.ths → Stage.split E m ∈ s.ths) : Deep n t rg where
  idx := hi.trans h.idx
  root := h.root
  opn x hx := by rw [hn]; exact h.opn x (ho x hx)
  spl E m hm := h.spl E m (hs E m hm)
  leaf i := by rw [hn]; exact h.leaf i
  push i := by rw [hn, hnn]; exact h.push i
  fresh j := by rw [hn, hnn]; exact h.fresh j

/-- What the surface area heuristic decides for a suffix of the triangles. -/
theorem deep_choice {s e : ℕ} (h2 : ¬ e - s < 2) (h100 : e ≤ 100) {nb : Box ℚ} (hb : nb = rangeBound deepTri (fun i => i) s e dflt) {i0 i1 i2 : ℕ → ℕ}
    (h0 : Sorts deepTri s e 0 (fun i => i) i0) (h1 : Sorts deepTri s e 1 i0 i1) (h2' : Sorts deepTri s e 2 i1 i2) :
    i2 = (fun i => i) ∧ (sahBest deepTri (surfaceArea nb) (seg i0 s e) (seg i1 s e) (seg i2 s e)).b ≤ ((e - s : ℕ) : ℚ) ∧
    ∀ bi ba, (sahBest deepTri (surfaceArea nb) (seg i0 s e) (seg i1 s e) (seg i2 s e)).ia = some (bi, ba) → bi = 1 := by
  have e0 := deep_sorts h0
  subst e0
  have e1 := deep_sorts h1
  subst e1
  have e2 := deep_sorts h2'
  subst e2
  have hlt : s < e := by omega
  rw [hb, deep_nodeArea s e hlt, seg_id]
  obtain ⟨c, hc, hcm, hbest⟩ := deep_first_best s e (by omega) (by omega)
  obtain ⟨m1, m2⟩ := sahBest_min deepTri (6 * (dsz s - dsz (e - 1) / 2) ^ 2) (List.range' s (e - s)) (List.range' s (e - s)) (List.range' s (e - s))
  have hp : ∀ ax, pick (List.range' s (e - s)) (List.range' s (e - s)) (List.range' s (e - s)) ax = List.range' s (e - s) := by
    intro ax
    unfold pick
    split <;> rfl
  have hle := m1 0 (by norm_num) 1 c le_rfl (by rw [hp]; simp; omega) (by rw [hp]; exact hc)
  refine ⟨rfl, hle.trans hcm, fun bi ba hia => ?_⟩
  obtain ⟨_, g1, g2, g3⟩ := m2 bi ba hia
  rw [hp] at g2 g3
  simp only [List.length_range'] at g2
  by_contra hne
  obtain ⟨c', hc', hlt'⟩ := hbest bi (by omega) g2
  rw [hc'] at g3
  have := Option.some.inj g3
  linarith

theorem wake1_mem {ts ts' : List Stage} (h : Wake1 ts ts') {x : Stage} (hx : x ∈ ts') : x ∈ ts ∨ x = .idle := by
  rcases h with ⟨_, rfl⟩ | ⟨a, b, rfl, rfl⟩
  · exact .inl hx
  · simp only [List.mem_append, List.mem_cons] at hx ⊢
    tauto

theorem wakeAll_mem {ts : List Stage} {x : Stage} (hx : x ∈ wakeAll ts) : x ∈ ts ∨ x = .idle := by
  obtain ⟨y, hy, rfl⟩ := List.mem_map.mp hx
  cases y <;> simp [wake, hy]

theorem deep_step {s t : St} (hinv : Inv deepTri 100 s) (hr : ∃ k, Reach deepTri 100 k s) (hs : Step deepTri 100 s t) {rg : ℕ → ℕ × ℕ} (h : Deep 100 s rg) : ∃ rg', Deep 100 t rg' := by
  obtain ⟨hnd, hlt, hnn⟩ := opens_nodup hinv
  obtain ⟨k, hr⟩ := hr
  have hrange := (C36_in_range deepTri 100 k (by norm_num) s hr).2.1
  cases hs with
  | exit A B q nodes idx pr nn =>
    refine ⟨rg, h.mono rfl rfl rfl (fun x hx => ?_) (fun E m hm => ?_)⟩
    · simpa [opensOf, openOf] using hx
    · simpa using hm
  | wait A B nodes idx pr nn =>
    refine ⟨rg, h.mono rfl rfl rfl (fun x hx => ?_) (fun E m hm => ?_)⟩
    · simpa [opensOf, openOf] using hx
    · simpa using hm
  | pop A B E q nodes idx pr nn =>
    refine ⟨rg, h.mono rfl rfl rfl (fun x hx => ?_) (fun E m hm => ?_)⟩
    · simp only [opensOf, openOf, List.flatMap_append, List.flatMap_cons, List.map_cons, List.mem_append, List.mem_cons, List.not_mem_nil, or_false, List.nil_append] at hx ⊢
      tauto
    · simpa using hm
  | recheck A B E q nodes idx pr nn dn =>
    refine ⟨rg, h.mono rfl rfl rfl (fun x hx => ?_) (fun E m hm => ?_)⟩
    · cases dn <;> simp only [opensOf, openOf, Bool.false_eq_true, if_false, if_true, List.flatMap_append, List.flatMap_cons, List.mem_append, List.mem_cons, List.not_mem_nil, or_false, List.nil_append] at hx ⊢ <;> tauto
    · cases dn <;> simpa using hm
  | bound A B E q nodes idx pr nn dn =>
    have hE : (E, false) ∈ opensOf ⟨q, nodes, idx, pr, nn, dn, A ++ .work E :: B⟩ := by simp [opensOf, openOf]
    have hnd' : (((q.map (fun E => (E, false)) ++ A.flatMap openOf) ++ (E, false) :: B.flatMap openOf).map (fun x => x.1.i)).Nodup := by
      simpa [opensOf, openOf, List.append_assoc] using hnd
    obtain ⟨o1, o2, o3⟩ := h.opn _ hE
    have hidx := h.idx
    simp only at hidx o1 o2 o3
    subst hidx
    refine ⟨rg, ?_⟩
    refine { idx := rfl, root := h.root, opn := ?_, spl := fun E' m hm => h.spl E' m (by simpa using hm), leaf := ?_, push := ?_, fresh := ?_ }
    · intro x hx
      have hx' : x = (E, true) ∨ (x ∈ q.map (fun E => (E, false)) ++ A.flatMap openOf ∨ x ∈ B.flatMap openOf) := by
        simp only [opensOf, openOf, List.flatMap_append, List.flatMap_cons, List.mem_append, List.mem_cons, List.not_mem_nil, or_false] at hx ⊢
        tauto
      rcases hx' with rfl | hx'
      · refine ⟨o1, o2, ?_⟩
        simp only [setNode, if_true]
        rw [o3]
        simp
      · have hne := nodup_other hnd' hx'
        have := h.opn x (by
          simp only [opensOf, openOf, List.flatMap_append, List.flatMap_cons, List.mem_append, List.mem_cons, List.not_mem_nil, or_false] at hx' ⊢
          tauto)
        simpa only [setNode, if_neg hne] using this
    · intro i
      by_cases hi : i = E.i
      · subst hi; simp only [setNode, if_true]; exact h.leaf _
      · simp only [setNode, if_neg hi]; exact h.leaf _
    · intro i
      by_cases hi : i = E.i
      · subst hi; simp only [setNode, if_true]; exact h.push _
      · simp only [setNode, if_neg hi]; exact h.push _
    · intro j hj
      have : j ≠ E.i := by have := hlt _ hE; simp only at this hj; omega
      simp only [setNode, if_neg this]
      exact h.fresh j hj
  | leaf1 A B E q nodes idx pr nn dn hsmall =>
    have hE : (E, true) ∈ opensOf ⟨q, nodes, idx, pr, nn, dn, A ++ .bounded E :: B⟩ := by simp [opensOf, openOf]
    have hnd' : (((q.map (fun E => (E, false)) ++ A.flatMap openOf) ++ (E, true) :: B.flatMap openOf).map (fun x => x.1.i)).Nodup := by
      simpa [opensOf, openOf, List.append_assoc] using hnd
    obtain ⟨o1, o2, o3⟩ := h.opn _ hE
    obtain ⟨r1, r2, r3⟩ := hrange E (.inr (.inr (.inl (by simp))))
    simp only at o1 o2 o3
    refine ⟨rg, ?_⟩
    refine { idx := h.idx, root := h.root, opn := ?_, spl := fun E' m hm => h.spl E' m (by simpa using hm), leaf := ?_, push := ?_, fresh := ?_ }
    · intro x hx
      have hx' : x ∈ q.map (fun E => (E, false)) ++ A.flatMap openOf ∨ x ∈ B.flatMap openOf := by
        simp only [opensOf, openOf, List.flatMap_append, List.flatMap_cons, List.mem_append, List.nil_append] at hx ⊢
        tauto
      have hne := nodup_other hnd' hx'
      have := h.opn x (by
        simp only [opensOf, openOf, List.flatMap_append, List.flatMap_cons, List.mem_append, List.mem_cons, List.not_mem_nil, or_false] at hx' ⊢
        tauto)
      simpa only [setNode, if_neg hne] using this
    · intro i
      by_cases hi : i = E.i
      · subst hi; simp only [setNode, if_true]; intro _; exact ⟨o1, by omega⟩
      · simp only [setNode, if_neg hi]; exact h.leaf _
    · intro i
      by_cases hi : i = E.i
      · subst hi; simp only [setNode, if_true]; exact h.push _
      · simp only [setNode, if_neg hi]; exact h.push _
    · intro j hj
      have : j ≠ E.i := by have := hlt _ hE; simp only at this hj; omega
      simp only [setNode, if_neg this]
      exact h.fresh j hj
  | leafN A B E q nodes idx pr nn dn i0 i1 i2 hbig h0 h1 h2 hb =>
    exfalso
    have hE : (E, true) ∈ opensOf ⟨q, nodes, idx, pr, nn, dn, A ++ .bounded E :: B⟩ := by simp [opensOf, openOf]
    obtain ⟨o1, o2, o3⟩ := h.opn _ hE
    obtain ⟨r1, r2, r3⟩ := hrange E (.inr (.inr (.inl (by simp))))
    have hidx := h.idx
    simp only at o3 hidx
    subst hidx
    obtain ⟨_, c2, _⟩ := deep_choice hbig r3 (by simpa using o3) h0 h1 h2
    exact absurd hb (not_lt.mpr c2)
  | choose A B E q nodes idx pr nn dn i0 i1 i2 i3 bi ba hbig h0 h1 h2 hb hi h3 =>
    have hE : (E, true) ∈ opensOf ⟨q, nodes, idx, pr, nn, dn, A ++ .bounded E :: B⟩ := by simp [opensOf, openOf]
    obtain ⟨o1, o2, o3⟩ := h.opn _ hE
    obtain ⟨r1, r2, r3⟩ := hrange E (.inr (.inr (.inl (by simp))))
    have hidx := h.idx
    simp only at o2 o3 hidx
    subst hidx
    obtain ⟨c1, _, c3⟩ := deep_choice hbig r3 (by simpa using o3) h0 h1 h2
    have hbi := c3 bi ba hi
    subst c1
    have h4 := deep_sorts h3
    subst h4
    refine ⟨rg, ?_⟩
    refine { idx := rfl, root := h.root, opn := ?_, spl := ?_, leaf := h.leaf, push := h.push, fresh := h.fresh }
    · intro x hx
      exact h.opn x (by simpa [opensOf, openOf] using hx)
    · intro E' m hm
      simp only [List.mem_append, List.mem_cons] at hm
      rcases hm with hm | hm | hm
      · exact h.spl E' m (by simp [hm])
      · cases hm
        exact ⟨by rw [hbi], by omega⟩
      · exact h.spl E' m (by simp [hm])
  | push A B E m q nodes idx pr nn dn ths' hw =>
    have hE : (E, true) ∈ opensOf ⟨q, nodes, idx, pr, nn, dn, A ++ .split E m :: B⟩ := by simp [opensOf, openOf]
    have hnd' : (((q.map (fun E => (E, false)) ++ A.flatMap openOf) ++ (E, true) :: B.flatMap openOf).map (fun x => x.1.i)).Nodup := by
      simpa [opensOf, openOf, List.append_assoc] using hnd
    obtain ⟨o1, o2, o3⟩ := h.opn _ hE
    obtain ⟨rfl, hEn⟩ := h.spl E m (by simp)
    have hEl := hlt _ hE
    simp only at o1 o2 o3 hEl hnn
    obtain ⟨rg', hrg, hrg1, hrg2⟩ : ∃ rg' : ℕ → ℕ × ℕ, (∀ i, i < nn → rg' i = rg i) ∧ rg' nn = (E.s, E.s + 1) ∧ rg' (nn + 1) = (E.s + 1, 100) := by
      refine ⟨fun j => if j = nn then (E.s, E.s + 1) else if j = nn + 1 then (E.s + 1, 100) else rg j, fun i hi => ?_, by simp, by simp⟩
      simp only
      rw [if_neg (by omega), if_neg (by omega)]
    have hfr : ∀ j, nn ≤ j → nodes j = Node.init := h.fresh
    have hold : ∀ x, x ∈ q.map (fun E => (E, false)) ++ A.flatMap openOf ∨ x ∈ B.flatMap openOf → x ∈ opensOf ⟨q, nodes, idx, pr, nn, dn, A ++ .split E (E.s + 1) :: B⟩ := by
      intro x hx
      simp only [opensOf, openOf, List.flatMap_append, List.flatMap_cons, List.mem_append, List.mem_cons, List.not_mem_nil, or_false] at hx ⊢
      tauto
    refine ⟨rg', ?_⟩
    refine { idx := h.idx, root := by rw [hrg 0 hnn]; exact h.root, opn := ?_, spl := ?_, leaf := ?_, push := ?_, fresh := ?_ }
    · intro x hx
      have hx' : x = (⟨nn, E.s, E.s + 1⟩, false) ∨ x = (⟨nn + 1, E.s + 1, E.e⟩, false) ∨ (x ∈ q.map (fun E => (E, false)) ++ A.flatMap openOf ∨ x ∈ B.flatMap openOf) := by
        simp only [opensOf, List.mem_append, List.map_append, List.map_cons, List.map_nil, List.mem_cons, List.not_mem_nil, or_false] at hx ⊢
        rcases hx with (hx | hx) | hx
        · tauto
        · tauto
        · obtain ⟨st, hst, hx⟩ := List.mem_flatMap.mp hx
          rcases wake1_mem hw hst with hst | rfl
          · simp only [List.mem_append, List.mem_cons] at hst
            rcases hst with hst | rfl | hst
            · exact .inr (.inr (.inl (.inr (List.mem_flatMap.mpr ⟨st, hst, hx⟩))))
            · simp [openOf] at hx
            · exact .inr (.inr (.inr (List.mem_flatMap.mpr ⟨st, hst, hx⟩)))
          · simp [openOf] at hx
      rcases hx' with rfl | rfl | hx'
      · refine ⟨hrg1, by simp, ?_⟩
        simp only [setNode, if_neg (show nn ≠ E.i by omega)]
        rw [hfr nn le_rfl]
        rfl
      · refine ⟨by rw [hrg2, hEn], by simp [hEn], ?_⟩
        simp only [setNode, if_neg (show nn + 1 ≠ E.i by omega)]
        rw [hfr (nn + 1) (by simp)]
        rfl
      · have hne := nodup_other hnd' hx'
        have := h.opn x (hold x hx')
        rw [hrg _ (hlt x (hold x hx'))]
        simpa only [setNode, if_neg hne] using this
    · intro E' m' hm
      rcases wake1_mem hw hm with hm | hm
      · refine h.spl E' m' ?_
        simp only [List.mem_append, List.mem_cons] at hm ⊢
        rcases hm with hm | hm | hm
        · exact .inl hm
        · cases hm
        · exact .inr (.inr hm)
      · cases hm
    · intro i
      by_cases hi : i = E.i
      · subst hi
        simp only [setNode, if_true]
        intro hl
        rw [hrg _ hEl]
        exact h.leaf _ hl
      · simp only [setNode, if_neg hi]
        intro hl
        have : i < nn := by
          by_contra hc
          have := hfr i (not_lt.mp hc)
          rw [this] at hl
          simp [Node.init] at hl
        rw [hrg _ this]
        exact h.leaf _ hl
    · intro i
      by_cases hi : i = E.i
      · subst hi
        simp only [setNode, if_true]
        intro _
        refine ⟨E.s, ?_, ?_, ?_, by omega, by omega⟩
        · rw [hrg _ hEl, o1, hEn]
        · exact hrg1
        · exact hrg2
      · simp only [setNode, if_neg hi]
        intro hc
        have hin : i < nn := by
          by_contra hc'
          have := hfr i (not_lt.mp hc')
          rw [this] at hc
          simp [Node.init] at hc
        obtain ⟨a, p1, p2, p3, p4, p5⟩ := h.push i hc
        simp only at p1 p2 p3 p4 p5
        exact ⟨a, by rw [hrg _ hin]; exact p1, by rw [hrg _ p4]; exact p2, by rw [hrg _ p5]; exact p3, by omega, by omega⟩
    · intro j hj
      have : j ≠ E.i := by simp only at hj; omega
      simp only [setNode, if_neg this]
      exact h.fresh j (by simp only at hj ⊢; omega)
  | add A B E q nodes idx pr nn dn =>
    refine ⟨rg, h.mono rfl rfl rfl (fun x hx => ?_) (fun E m hm => ?_)⟩
    · simpa [opensOf, openOf] using hx
    · simpa using hm
  | chkNo A B q nodes idx pr nn dn hne =>
    refine ⟨rg, h.mono rfl rfl rfl (fun x hx => ?_) (fun E m hm => ?_)⟩
    · simpa [opensOf, openOf] using hx
    · simpa using hm
  | chkYes A B q nodes idx pr nn dn he =>
    refine ⟨rg, h.mono rfl rfl rfl (fun x hx => ?_) (fun E m hm => ?_)⟩
    · simp only [opensOf, openOf_wakeAll] at hx ⊢
      simpa [openOf] using hx
    · rcases wakeAll_mem hm with hm | hm
      · simpa using hm
      · cases hm

theorem deep_reach {k : ℕ} {s : St} (hr : Reach deepTri 100 k s) : ∃ rg, Deep 100 s rg := by
  induction hr with
  | init =>
    refine ⟨fun _ => (0, 100), ?_⟩
    have hf : (List.replicate k Stage.idle).flatMap openOf = [] := by
      rw [List.flatMap_eq_nil_iff]; intro t ht; rw [List.eq_of_mem_replicate ht]; rfl
    refine { idx := rfl, root := rfl, opn := ?_, spl := ?_, leaf := ?_, push := ?_, fresh := fun _ _ => rfl }
    · intro x hx
      simp only [opensOf, St.init, hf, List.map_cons, List.map_nil, List.append_nil, List.mem_singleton] at hx
      subst hx
      exact ⟨rfl, .inl rfl, rfl⟩
    · intro E m hm
      simp only [St.init] at hm
      cases List.eq_of_mem_replicate hm
    · intro i hl; simp [St.init, Node.init] at hl
    · intro i hl; simp [St.init, Node.init] at hl
  | step s t hr hs ih =>
    obtain ⟨rg, h⟩ := ih
    exact deep_step (inv_reach (by norm_num) hr) ⟨k, hr⟩ hs h

/-! ### The chain is too deep for the traversal stack -/

theorem holds_ne {nodes idx trs i L} (h : Holds nodes idx trs i L) : L ≠ [] := by
  induction h with
  | leaf i _ hne _ =>
    intro hc
    have := congrArg List.length hc
    rw [seg_length] at this
    simp at this
    omega
  | inner i L1 L2 _ _ _ _ i1 _ => exact fun hc => i1 (List.append_eq_nil_iff.mp hc).1

theorem holds_unique {nodes idx trs i L L'} (h : Holds nodes idx trs i L) (h' : Holds nodes idx trs i L') : L = L' := by
  induction h generalizing L' with
  | leaf i hl _ _ =>
    cases h' with
    | leaf _ _ _ _ => rfl
    | inner _ _ _ hl' _ _ _ => rw [hl] at hl'; cases hl'
  | inner i L1 L2 hl _ _ _ i1 i2 =>
    cases h' with
    | leaf _ hl' _ _ => rw [hl] at hl'; cases hl'
    | inner _ M1 M2 _ g1 g2 _ => rw [i1 g1, i2 g2]

theorem holds_cov {nodes idx trs i L} (h : Holds nodes idx trs i L) {k : ℕ} (hk : k ∈ L) : Cov trs (nodes i).b k := by
  cases h with
  | leaf _ _ _ hc => exact hc k hk
  | inner _ _ _ _ _ _ hc => exact hc k hk

theorem deep_node {n : ℕ} {s : St} {rg : ℕ → ℕ × ℕ} (h : Deep n s rg) {L0 : List ℕ} (h0 : Holds s.nodes (fun i => i) deepTri 0 L0) {i d e : ℕ} {L : List ℕ}
    (hi : Holds s.nodes (fun i => i) deepTri i L) (hl : L.length ≤ L0.length) (hr : rg i = (d, e)) :
    ((s.nodes i).leaf = true ∧ e = d + 1 ∧ L = [d]) ∨
    ((s.nodes i).leaf = false ∧ e = n ∧ ∃ L1 L2, L = L1 ++ L2 ∧ Holds s.nodes (fun i => i) deepTri (s.nodes i).c1 L1 ∧ Holds s.nodes (fun i => i) deepTri (s.nodes i).c2 L2 ∧
      rg (s.nodes i).c1 = (d, d + 1) ∧ rg (s.nodes i).c2 = (d + 1, n)) := by
  cases hi with
  | leaf _ hlf hne hc =>
    obtain ⟨a, b⟩ := h.leaf i hlf
    rw [hr] at a
    obtain ⟨rfl, rfl⟩ := Prod.mk.inj a
    refine .inl ⟨hlf, b, ?_⟩
    rw [seg_id, b]
    simp
  | inner _ L1 L2 hlf g1 g2 hc =>
    by_cases hc2 : (s.nodes i).c2 = 0
    · exfalso
      rw [hc2] at g2
      have := holds_unique g2 h0
      subst this
      have := List.length_pos_of_ne_nil (holds_ne g1)
      rw [List.length_append] at hl
      omega
    · obtain ⟨a, p1, p2, p3, _, _⟩ := h.push i hc2
      rw [hr] at p1
      obtain ⟨rfl, rfl⟩ := Prod.mk.inj p1
      exact .inr ⟨hlf, rfl, L1, L2, rfl, g1, g2, p2, p3⟩

theorem deep_descend {s : St} {rg : ℕ → ℕ × ℕ} (h : Deep 100 s rg) {L0 : List ℕ} (h0 : Holds s.nodes (fun i => i) deepTri 0 L0) (r : Ray) (tmin tmax t : ℚ)
    (ht : tmin ≤ t) (ht' : t ≤ tmax) (hit : Hits (deepTri 99).b r t) :
    ∀ (m d i : ℕ) (L rest : List ℕ), d + m = 98 → rg i = (d, 100) → Holds s.nodes (fun i => i) deepTri i L → L.length ≤ L0.length → 99 ∈ L → rest.length = d →
      ∃ u, Steps s.nodes deepTri (fun i => i) r tmin ⟨i :: rest, none, tmax⟩ u ∧ tstep s.nodes deepTri (fun i => i) r tmin u = .overflow := by
  intro m
  induction m with
  | zero =>
    intro d i L rest hd hr hi hl h99 hlen
    refine ⟨_, .refl _, ?_⟩
    have hb := C31_conservative _ r tmin tmax t ht ht' (holds_cov hi h99 _ hit)
    rcases deep_node h h0 hi hl hr with ⟨_, h1, _⟩ | ⟨hlf, _⟩
    · omega
    · simp only [tstep]
      rw [hb]
      simp only [Bool.true_eq_false, if_false, hlf, if_true]
      rw [if_neg (by unfold cap; omega)]
  | succ m ih =>
    intro d i L rest hd hr hi hl h99 hlen
    have hb := C31_conservative _ r tmin tmax t ht ht' (holds_cov hi h99 _ hit)
    rcases deep_node h h0 hi hl hr with ⟨_, h1, _⟩ | ⟨hlf, _, L1, L2, rfl, g1, g2, p1, p2⟩
    · omega
    · rw [List.length_append] at hl
      rcases deep_node h h0 g1 (by omega) p1 with ⟨_, _, rfl⟩ | ⟨_, h1, _⟩
      · have h99' : 99 ∈ L2 := by
          rcases List.mem_append.mp h99 with h9 | h9
          · simp at h9; omega
          · exact h9
        obtain ⟨u, s1, s2⟩ := ih (d + 1) _ L2 ((s.nodes i).c1 :: rest) (by omega) p2 g2 (by omega) h99' (by simp [hlen])
        refine ⟨u, .cons _ _ _ ?_ s1, s2⟩
        simp only [tstep]
        rw [hb]
        simp only [Bool.true_eq_false, if_false, hlf, if_true]
        rw [if_pos (by unfold cap; omega)]
      · omega

/-- Every completed build over the 100 triangles, whatever the number of threads and their interleaving, gives a tree on which every query that meets the box of the last triangle
    writes beyond the traversal stack. -/
theorem deep_overflow (k : ℕ) (s : St) (hr : Reach deepTri 100 k s) (hne : s.ths ≠ []) (hex : ∀ t ∈ s.ths, t = Stage.exited) (r : Ray) (tmin tmax t : ℚ)
    (ht : tmin ≤ t) (ht' : t ≤ tmax) (hit : Hits (deepTri 99).b r t) : ∃ fuel, trun s.nodes deepTri s.idx r tmin fuel (TSt.init tmax) = some .overflow := by
  obtain ⟨rg, h⟩ := deep_reach hr
  obtain ⟨L, hh, hp⟩ := C36_built deepTri 100 k (by norm_num) s hr hne hex
  rw [h.idx] at hh ⊢
  obtain ⟨u, s1, s2⟩ := deep_descend h hh r tmin tmax t ht ht' hit 98 0 0 L [] rfl h.root hh le_rfl (hp.mem_iff.mpr (by simp)) rfl
  exact trun_of_steps_overflow s1 s2

/-- A ray straight down through the last triangle's box. -/
def deepRay : Ray := ⟨⟨-(3 / 4) * dsz 99, -(3 / 4) * dsz 99, 1⟩, ⟨0, 0, -1⟩, (false, false, false)⟩

theorem deepRay_hits : Hits (deepTri 99).b deepRay (1 + 3 / 4 * dsz 99) := by
  rw [deepTri_b]
  have := dsz_pos 99
  simp only [Hits, In, deepRay, V3.all, V3.add_x, V3.add_y, V3.add_z, V3.smul_x, V3.smul_y, V3.smul_z]
  refine ⟨⟨?_, ?_⟩, ⟨?_, ?_⟩, ?_, ?_⟩ <;> linarith

/-- C38, negation, for trees the builder really makes: there are 100 well-formed triangles, all inside the unit cube at the origin, and a ray such that building over them always
    completes into a tree — with any number of threads and any interleaving, whatever order the sorts leave equal keys in — on which this query writes beyond the traversal stack.
    `C38_small_partial` shows that 100 is the smallest such number. (Arithmetic is exact; the triangles shrink by a factor of 10 each, a range of 10^99, which fits doubles but not floats.) -/
theorem C38_negation_built : ∃ (trs : ℕ → Tri) (r : Ray), Made trs ∧ (∀ i p, In p (trs i).b → In p ⟨V3.all (-1), V3.all 0⟩) ∧
    (∀ k, 1 ≤ k → ∃ s, Reach trs 100 k s ∧ s.ths ≠ [] ∧ ∀ t ∈ s.ths, t = Stage.exited) ∧
    ∀ k s, Reach trs 100 k s → s.ths ≠ [] → (∀ t ∈ s.ths, t = Stage.exited) → ∃ fuel, trun s.nodes trs s.idx r 0 fuel (TSt.init 2) = some .overflow := by
  refine ⟨deepTri, deepRay, fun i => ⟨_, _, _, rfl⟩, ?_, ?_, ?_⟩
  · intro i p hp
    rw [deepTri_b] at hp
    have h1 := dsz_pos i
    have h2 := dsz_le i
    simp only [In, V3.all] at hp ⊢
    obtain ⟨⟨a, b⟩, ⟨c, d⟩, e, f⟩ := hp
    refine ⟨⟨?_, ?_⟩, ⟨?_, ?_⟩, ?_, ?_⟩ <;> linarith
  · intro k hk
    obtain ⟨s, hr, hex⟩ := Accel.exists_complete deepTri 100 k (by norm_num) (by norm_num) _ .init
    exact ⟨s, hr, (fun hc => by have := reach_length (by norm_num) hr; rw [hc] at this; simp at this; omega), hex⟩
  · intro k s hr hne hex
    have h1 := dsz_pos 99
    have h2 := dsz_le 99
    exact deep_overflow k s hr hne hex deepRay 0 2 _ (by linarith) (by linarith) deepRay_hits

end LM.Bvh
