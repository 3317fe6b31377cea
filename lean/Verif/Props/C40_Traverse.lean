import Verif.Props.C39_Scene
import Mathlib.Data.List.Induction
namespace LM.Scene
variable {Mat : Type}

/-! ### C40: traversal. Specification: paths of child positions starting at a node. -/

/-- `Follows nodes i p j ts`: starting at node i and descending to the children at the positions p ends at the existing node j; ts are the transforms of the groups passed, outermost first. -/
inductive Follows (nodes : List (Node Mat)) : Int → List ℕ → Int → List Mat → Prop
  | nil (i n) (h : at? nodes i = some n) : Follows nodes i [] i []
  | cons (i idx ch b tr k c p j ts) (h : at? nodes i = some (.group idx ch b tr)) (hk : ch[k]? = some c) (hf : Follows nodes c p j ts) : Follows nodes i (k :: p) j (tr.toList ++ ts)

/-- The visits `out` are exactly the paths from node i, each once, with the transform g times the transforms along the path. -/
def Enumerates [Monoid Mat] (nodes : List (Node Mat)) (i : Int) (g : Mat) (out : List (Int × Mat)) : Prop :=
  ∃ ps : List (List ℕ), ps.Nodup ∧ (∀ p, p ∈ ps ↔ ∃ j ts, Follows nodes i p j ts) ∧ List.Forall₂ (fun p (v : Int × Mat) => ∃ ts, Follows nodes i p v.1 ts ∧ v.2 = g * ts.prod) ps out

theorem visit_enumerates [Monoid Mat] (nodes : List (Node Mat)) : ∀ fuel i (g : Mat) out, visit nodes fuel i g = .done out → Enumerates nodes i g out := by
  intro fuel
  induction fuel with
  | zero => intro i g out h; simp [visit] at h
  | succ fuel ih =>
    intro i g out h
    unfold visit at h
    split at h
    · cases h
    · next idx p hn =>
      cases h
      refine ⟨[[]], by simp, ?_, ?_⟩
      · intro q
        simp only [List.mem_singleton]
        constructor
        · rintro rfl; exact ⟨i, [], .nil i _ hn⟩
        · rintro ⟨j, ts, hf⟩
          cases hf with
          | nil => rfl
          | cons _ _ _ _ _ _ _ _ _ _ h => rw [hn] at h; cases h
      · exact .cons ⟨[], .nil i _ hn, by simp⟩ .nil
    · next idx ch b tr hn =>
      -- children
      have kids : ∀ (cs : List Int) (k0 : ℕ) (M : Mat) (o : List (Int × Mat)), seqT (fun c => visit nodes fuel c M) cs = .done o →
          ∃ qs : List (List ℕ), qs.Nodup ∧ (∀ q, q ∈ qs ↔ ∃ k c p j ts, cs[k]? = some c ∧ q = (k0 + k) :: p ∧ Follows nodes c p j ts) ∧
            List.Forall₂ (fun q (v : Int × Mat) => ∃ k c p ts, cs[k]? = some c ∧ q = (k0 + k) :: p ∧ Follows nodes c p v.1 ts ∧ v.2 = M * ts.prod) qs o := by
        intro cs
        induction cs with
        | nil =>
          intro k0 M o ho
          cases ho
          exact ⟨[], by simp, by simp, .nil⟩
        | cons c cs ihc =>
          intro k0 M o ho
          unfold seqT at ho
          split at ho
          · next a ha =>
            split at ho
            · next b' hb =>
              cases ho
              obtain ⟨ps, n1, m1, f1⟩ := ih c M a ha
              obtain ⟨qs, n2, m2, f2⟩ := ihc (k0 + 1) M b' hb
              refine ⟨ps.map (k0 :: ·) ++ qs, ?_, ?_, ?_⟩
              · refine List.nodup_append.mpr ⟨n1.map (fun a b h => (List.cons.inj h).2), n2, ?_⟩
                intro x hx y hy hxy
                subst hxy
                obtain ⟨p, _, rfl⟩ := List.mem_map.mp hx
                obtain ⟨k, c', p', j, ts, _, e, _⟩ := (m2 _).mp hy
                have := (List.cons.inj e).1
                omega
              · intro q
                simp only [List.mem_append, List.mem_map]
                constructor
                · rintro (⟨p, hp, rfl⟩ | hq)
                  · obtain ⟨j, ts, hf⟩ := (m1 p).mp hp
                    exact ⟨0, c, p, j, ts, rfl, rfl, hf⟩
                  · obtain ⟨k, c', p', j, ts, hc', e, hf⟩ := (m2 _).mp hq
                    exact ⟨k + 1, c', p', j, ts, by simpa using hc', by rw [e]; congr 1; omega, hf⟩
                · rintro ⟨k, c', p', j, ts, hc', e, hf⟩
                  cases k with
                  | zero =>
                    simp only [List.getElem?_cons_zero, Option.some.injEq] at hc'
                    subst hc'
                    exact .inl ⟨p', (m1 p').mpr ⟨j, ts, hf⟩, e.symm⟩
                  | succ k =>
                    exact .inr ((m2 q).mpr ⟨k, c', p', j, ts, by simpa using hc', by rw [e]; congr 1; omega, hf⟩)
              · refine List.rel_append ?_ ?_
                · rw [List.forall₂_map_left_iff]
                  exact f1.imp (fun p v ⟨ts, hf, hv⟩ => ⟨0, c, p, ts, rfl, rfl, hf, hv⟩)
                · exact f2.imp (fun q v ⟨k, c', p', ts, hc', e, hf, hv⟩ => ⟨k + 1, c', p', ts, by simpa using hc', by rw [e]; congr 1; omega, hf, hv⟩)
            · next r hr => exact (hr _ ho).elim
          · next r hr => exact (hr _ ho).elim
      simp only at h
      split at h
      · next o ho =>
        cases h
        obtain ⟨qs, n1, m1, f1⟩ := kids ch 0 _ o ho
        refine ⟨[] :: qs, ?_, ?_, ?_⟩
        · refine List.nodup_cons.mpr ⟨?_, n1⟩
          intro hm
          obtain ⟨k, c, p, j, ts, _, e, _⟩ := (m1 _).mp hm
          cases e
        · intro q
          simp only [List.mem_cons]
          constructor
          · rintro (rfl | hq)
            · exact ⟨i, [], .nil i _ hn⟩
            · obtain ⟨k, c, p, j, ts, hc, e, hf⟩ := (m1 q).mp hq
              rw [e, Nat.zero_add]
              exact ⟨j, _, .cons i idx ch b tr k c p j ts hn hc hf⟩
          · rintro ⟨j, ts, hf⟩
            cases hf with
            | nil => exact .inl rfl
            | cons _ idx' ch' b' tr' k c p _ ts' h hk hf' =>
              rw [hn] at h
              cases h
              exact .inr ((m1 _).mpr ⟨k, c, p, j, ts', hk, by rw [Nat.zero_add], hf'⟩)
        · refine .cons ⟨[], .nil i _ hn, by simp⟩ ?_
          refine f1.imp ?_
          rintro q v ⟨k, c, p, ts, hc, e, hf, hv⟩
          rw [e, Nat.zero_add]
          refine ⟨_, .cons i idx ch b tr k c p v.1 ts hn hc hf, ?_⟩
          rw [hv]
          cases tr with
          | none => simp
          | some t => simp [mul_assoc]
      · next r hr => exact (hr _ h).elim

/-- C40. When traversal returns, it has visited every node once for every path from the root, and no other, and the transform it reports is the product of the group transforms along
    the path, outermost first. -/
theorem C40_every_path_once [Monoid Mat] (nodes : List (Node Mat)) (fuel : ℕ) (out : List (Int × Mat)) (h : traverse nodes fuel = .done out) : Enumerates nodes 0 1 out :=
  visit_enumerates nodes fuel 0 1 out h

/-- A group has the child c. -/
def Edge (nodes : List (Node Mat)) (i c : Int) : Prop := ∃ idx ch b tr, at? nodes i = some (.group idx ch b tr) ∧ c ∈ ch

theorem seqT_done (f : Int → Trav Mat) (cs : List Int) (h : ∀ c ∈ cs, ∃ o, f c = .done o) : ∃ o, seqT f cs = .done o := by
  induction cs with
  | nil => exact ⟨[], rfl⟩
  | cons c cs ih =>
    obtain ⟨a, ha⟩ := h c (by simp)
    obtain ⟨b, hb⟩ := ih (fun c hc => h c (by simp [hc]))
    exact ⟨a ++ b, by simp [seqT, ha, hb]⟩

/-- C40. On every acyclic scene graph (there is a ranking of the reachable nodes that children decrease) without dangling children, traversal returns. -/
theorem C40_returns [Monoid Mat] (nodes : List (Node Mat)) (rank : Int → ℕ) (h0 : (at? nodes 0).isSome)
    (hr : ∀ i c, Relation.ReflTransGen (Edge nodes) 0 i → Edge nodes i c → (at? nodes c).isSome ∧ rank c < rank i) : ∃ fuel out, traverse nodes fuel = .done out := by
  have gen : ∀ fuel i (g : Mat), rank i < fuel → (at? nodes i).isSome → Relation.ReflTransGen (Edge nodes) 0 i → ∃ out, visit nodes fuel i g = .done out := by
    intro fuel
    induction fuel with
    | zero => intro i g h; omega
    | succ fuel ih =>
      intro i g hlt hs hreach
      unfold visit
      cases hn : at? nodes i with
      | none => rw [hn] at hs; cases hs
      | some n =>
        cases n with
        | prim idx p => exact ⟨_, rfl⟩
        | group idx ch b tr =>
          simp only
          have hkids : ∀ M : Mat, ∃ o, seqT (fun c => visit nodes fuel c M) ch = .done o := by
            intro M
            apply seqT_done
            intro c hc
            have he : Edge nodes i c := ⟨idx, ch, b, tr, hn, hc⟩
            obtain ⟨a1, a2⟩ := hr i c hreach he
            exact ih c M (by omega) a1 (hreach.tail he)
          cases tr with
          | none =>
            obtain ⟨o, ho⟩ := hkids g
            simp only [ho]
            exact ⟨_, rfl⟩
          | some t =>
            obtain ⟨o, ho⟩ := hkids (g * t)
            simp only [ho]
            exact ⟨_, rfl⟩
  obtain ⟨out, ho⟩ := gen (rank 0 + 1) 0 1 (by omega) h0 .refl
  exact ⟨_, out, ho⟩

theorem seqT_all {f : Int → Trav Mat} {cs : List Int} {o : List (Int × Mat)} (h : seqT f cs = .done o) : ∀ c ∈ cs, ∃ o', f c = .done o' := by
  induction cs generalizing o with
  | nil => simp
  | cons c cs ih =>
    unfold seqT at h
    split at h
    · next a ha =>
      split at h
      · next b hb =>
        intro x hx
        rcases List.mem_cons.mp hx with rfl | hx
        · exact ⟨a, ha⟩
        · exact ih hb x hx
      · next r hr => exact (hr _ h).elim
    · next r hr => exact (hr _ h).elim

/-- C40. On a graph with a reachable cycle traversal never returns normally, so it does not silently miss nodes. -/
theorem C40_cycle [Monoid Mat] (nodes : List (Node Mat)) (i : Int) (hreach : Relation.ReflTransGen (Edge nodes) 0 i) (hc : Relation.TransGen (Edge nodes) i i) (fuel : ℕ) (out : List (Int × Mat)) :
    traverse nodes fuel ≠ .done out := by
  -- a node that is visited successfully at some depth has all its children visited successfully at a smaller one
  have down : ∀ fuel i (g : Mat) out, visit nodes fuel i g = .done out → ∀ c, Edge nodes i c → ∃ fuel' g' out', fuel' < fuel ∧ visit nodes fuel' c g' = .done out' := by
    intro fuel i g out h c he
    cases fuel with
    | zero => simp [visit] at h
    | succ fuel =>
      obtain ⟨idx, ch, b, tr, hn, hm⟩ := he
      unfold visit at h
      rw [hn] at h
      simp only at h
      split at h
      · next o ho =>
        obtain ⟨o', ho'⟩ := seqT_all ho c hm
        exact ⟨fuel, _, o', by omega, ho'⟩
      · next r hr => exact (hr _ h).elim
  have down' : ∀ i j, Relation.TransGen (Edge nodes) i j → ∀ fuel (g : Mat) out, visit nodes fuel i g = .done out → ∃ fuel' g' out', fuel' < fuel ∧ visit nodes fuel' j g' = .done out' := by
    intro i j h
    induction h with
    | single he => intro fuel g out hv; exact down fuel i g out hv _ he
    | tail _ he ih =>
      intro fuel g out hv
      obtain ⟨f1, g1, o1, l1, v1⟩ := ih fuel g out hv
      obtain ⟨f2, g2, o2, l2, v2⟩ := down f1 _ g1 o1 v1 _ he
      exact ⟨f2, g2, o2, by omega, v2⟩
  have loop : ∀ fuel (g : Mat) out, visit nodes fuel i g ≠ .done out := by
    intro fuel
    induction fuel using Nat.strong_induction_on with
    | _ fuel ih =>
      intro g out hv
      obtain ⟨f1, g1, o1, l1, v1⟩ := down' i i hc fuel g out hv
      exact ih f1 l1 g1 o1 v1
  intro h
  rcases Relation.reflTransGen_iff_eq_or_transGen.mp hreach with rfl | ht
  · exact loop fuel 1 out h
  · obtain ⟨f1, g1, o1, _, v1⟩ := down' 0 i ht fuel 1 out h
    exact loop f1 g1 o1 v1

/-- Calls that only add existing, later nodes as children (in particular every add_primitive / add_transformed_primitive call). -/
def Forward (st : St Mat) : Op Mat → Prop
  | .addChild a b => a < b ∧ b < st.nodes.length
  | .createGroupFromModel (some ns) => ∀ i ch b tr, Node.group i ch b tr ∈ ns → ∀ c ∈ ch, i < c ∧ c < ns.length
  | _ => True

/-- Every child exists and comes after its parent. -/
def Ordered (nodes : List (Node Mat)) : Prop := ∀ i c, Edge nodes i c → i < c ∧ (at? nodes c).isSome

theorem edge_snoc {ns : List (Node Mat)} {n : Node Mat} {i c : Int} (h : Edge (ns ++ [n]) i c) : Edge ns i c ∨ (i = ns.length ∧ ∃ idx ch b tr, n = .group idx ch b tr ∧ c ∈ ch) := by
  obtain ⟨idx, ch, b, tr, hn, hc⟩ := h
  obtain ⟨k, rfl, hk⟩ := at?_some hn
  rcases getElem?_snoc _ _ _ _ hk with h1 | ⟨h1, h2⟩
  · exact .inl ⟨idx, ch, b, tr, by rw [at?_nat]; exact h1, hc⟩
  · exact .inr ⟨by omega, idx, ch, b, tr, h2.symm, hc⟩

theorem at?_isSome_iff {ns : List (Node Mat)} {i : Int} : (at? ns i).isSome ↔ 0 ≤ i ∧ i < ns.length := by
  unfold at?
  split
  · simp; omega
  · simp; omega

theorem ordered_push {ns : List (Node Mat)} (h : Ordered ns) (n : Node Mat) (hn : ∀ idx ch b tr, n = .group idx ch b tr → ch = []) : Ordered (ns ++ [n]) := by
  intro i c he
  rcases edge_snoc he with he | ⟨_, idx, ch, b, tr, e, hc⟩
  · obtain ⟨a, b⟩ := h i c he
    refine ⟨a, ?_⟩
    rw [at?_isSome_iff] at b ⊢
    simp; omega
  · rw [hn idx ch b tr e] at hc; cases hc

theorem ordered_addChild {st : St Mat} (h : Ordered st.nodes) (a b : Int) (hab : a < b) (hb : b < st.nodes.length) : Ordered (addChild st a b).1.nodes := by
  unfold addChild
  split
  · exact h
  · next hr =>
    split
    · next idx ch bb tr hg =>
      intro i c he
      obtain ⟨idx', ch', b', tr', hn, hc⟩ := he
      obtain ⟨k, rfl, hk⟩ := at?_some hn
      have hlt : a.toNat < st.nodes.length := by omega
      have hlen : (at? (st.nodes.set a.toNat (.group idx (ch ++ [b]) bb tr)) c).isSome ↔ (at? st.nodes c).isSome := by
        rw [at?_isSome_iff, at?_isSome_iff]; simp
      rw [hlen]
      by_cases hka : a.toNat = k
      · subst hka
        simp only [List.getElem?_set_self hlt, Option.some.injEq, Node.group.injEq] at hk
        obtain ⟨_, e, _, _⟩ := hk
        rw [← e] at hc
        rcases List.mem_append.mp hc with hc | hc
        · exact h _ _ ⟨idx, ch, bb, tr, by rw [at?_nat]; exact hg, hc⟩
        · rw [List.mem_singleton.mp hc]
          exact ⟨by omega, by rw [at?_isSome_iff]; omega⟩
      · simp only [List.getElem?_set_ne hka] at hk
        exact h _ _ ⟨idx', ch', b', tr', by rw [at?_nat]; exact hk, hc⟩
    · exact h

/-- C40. Every scene made by calls that attach existing later nodes — in particular by any number of add_primitive and add_transformed_primitive calls, with or without models —
    is traversed completely. -/
theorem C40_api_scenes [Monoid Mat] (isEnv : ℕ → Bool) (ops : List (Op Mat)) (hok : ∀ op ∈ ops, OpOk op)
    (hf : ∀ (pre : List (Op Mat)) (op : Op Mat), pre ++ [op] <+: ops → Forward (run isEnv reset pre) op) :
    ∃ fuel out, traverse (run isEnv reset ops).nodes fuel = .done out ∧ Enumerates (run isEnv reset ops).nodes 0 1 out := by
  have key : ∀ ops : List (Op Mat), (∀ op ∈ ops, OpOk op) → (∀ (pre : List (Op Mat)) (op : Op Mat), pre ++ [op] <+: ops → Forward (run isEnv reset pre) op) → Ordered (run isEnv reset ops : St Mat).nodes := by
    intro ops
    induction ops using List.reverseRecOn with
    | nil =>
      intro _ _ i c he
      obtain ⟨idx, ch, b, tr, hn, hc⟩ := he
      obtain ⟨k, rfl, hk⟩ := at?_some hn
      simp only [run, List.foldl_nil, reset] at hk
      rcases k with _ | k
      · cases hk; cases hc
      · simp at hk
    | append_singleton ops op ih =>
      intro hok hfw
      have hok' : ∀ o ∈ ops, OpOk o := fun o ho => hok o (by simp [ho])
      have ho := ih hok' (fun pre o hp => hfw pre o (hp.trans (List.prefix_append _ _)))
      have hfo := hfw ops op (List.prefix_refl _)
      have hw := C39_wellformed isEnv ops hok'
      have e : run isEnv reset (ops ++ [op]) = (step isEnv (run isEnv reset ops : St Mat) op).1 := by simp [run]
      rw [e]
      generalize hst : (run isEnv reset ops : St Mat) = st at ho hfo hw
      cases op with
      | createPrimitive p =>
        simp only [step]
        rcases createPrimitive_cases isEnv st p with ⟨_, e⟩ | ⟨_, _, e⟩
        · rw [e]; exact ho
        · rw [e]; exact ordered_push ho _ (by intro _ _ _ _ h; cases h)
      | createGroup tr => exact ordered_push ho _ (by intro _ _ _ _ h; cases h; rfl)
      | createInstanceGroup => exact ordered_push ho _ (by intro _ _ _ _ h; cases h; rfl)
      | addChild a b => exact ordered_addChild ho a b hfo.1 hfo.2
      | addChildFromModel a m =>
        simp only [step, addChildFromModel]
        split
        · exact ho
        · next hr =>
          cases m with
          | none => exact ho
          | some ts =>
            have gen : ∀ (ts : List (Option ℕ × Option ℕ × Option ℕ)) (st : St Mat), a < st.nodes.length → Ordered st.nodes → Ordered (ts.foldl (modelPrimitive a) st).nodes := by
              intro ts
              induction ts with
              | nil => intro st _ h; exact h
              | cons t ts iht =>
                intro st hlt h
                simp only [List.foldl_cons]
                have h1 : Ordered (modelPrimitive a st t).nodes := by
                  unfold modelPrimitive
                  refine ordered_addChild (st := { st with nodes := st.nodes ++ [.prim st.nodes.length ⟨t.1, t.2.1, t.2.2, none, none⟩] }) (ordered_push h _ (by intro _ _ _ _ h; cases h)) a _ hlt ?_
                  simp
                refine iht _ ?_ h1
                have : (modelPrimitive a st t).nodes.length = st.nodes.length + 1 := by
                  unfold modelPrimitive addChild
                  simp only
                  split
                  · simp
                  · split <;> simp
                omega
            exact gen ts st (by omega) ho
      | createGroupFromModel m =>
        cases m with
        | none => exact ho
        | some ns =>
          have hmo : ModelOk 0 ns := hok (.createGroupFromModel (some ns)) (by simp)
          simp only [Forward] at hfo
          simp only [step, createGroupFromModel]
          -- edges after copying the nodes
          have gen : ∀ (off : ℕ) (ns : List (Node Mat)) (st' : St Mat) (base : ℕ), ModelOk base ns → st'.nodes.length = off + base →
              (ns.foldl (modelNode off) st').nodes.length = st'.nodes.length + ns.length ∧
              ∀ i c, Edge (ns.foldl (modelNode off) st').nodes i c → Edge st'.nodes i c ∨ ∃ idx ch b tr, Node.group idx ch b tr ∈ ns ∧ i = idx + off ∧ ∃ c0 ∈ ch, c = c0 + off := by
            intro off ns
            induction ns with
            | nil => intro st' base _ _; exact ⟨rfl, fun i c h => .inl h⟩
            | cons n ns ihn =>
              intro st' base hm hl
              have hl1 : (modelNode off st' n).nodes.length = st'.nodes.length + 1 := by
                cases n with
                | group => simp [modelNode]
                | prim j p => simp only [modelNode]; split <;> simp
              obtain ⟨g1, g2⟩ := ihn (modelNode off st' n) (base + 1) hm.2 (by omega)
              refine ⟨by simp only [List.foldl_cons, List.length_cons]; omega, ?_⟩
              intro i c he
              rcases g2 i c he with he | ⟨idx, ch, b, tr, h1, h2⟩
              · cases n with
                | group j ch b tr =>
                  rcases edge_snoc he with he | ⟨e1, idx, ch', b', tr', e2, hc⟩
                  · exact .inl he
                  · cases e2
                    obtain ⟨c0, hc0, rfl⟩ := List.mem_map.mp hc
                    have := hm.1
                    simp only [Node.index] at this
                    exact .inr ⟨j, ch, b, tr, by simp, by omega, c0, hc0, rfl⟩
                | prim j p =>
                  have he' : Edge (st'.nodes ++ [Node.prim (j + off) p]) i c := by
                    simp only [modelNode] at he
                    split at he <;> exact he
                  rcases edge_snoc he' with he | ⟨_, _, _, _, _, e2, _⟩
                  · exact .inl he
                  · cases e2
              · exact .inr ⟨idx, ch, b, tr, by simp [h1], h2⟩
          obtain ⟨g1, g2⟩ := gen st.nodes.length ns st 0 hmo rfl
          intro i c he
          rcases g2 i c he with he | ⟨idx, ch, b, tr, h1, rfl, c0, hc0, rfl⟩
          · obtain ⟨x, y⟩ := ho i c he
            refine ⟨x, ?_⟩
            rw [at?_isSome_iff] at y ⊢
            omega
          · obtain ⟨x, y⟩ := hfo idx ch b tr h1 c0 hc0
            have hpos : 0 ≤ idx := by
              have aux : ∀ (ns : List (Node Mat)) (base : ℕ), ModelOk base ns → ∀ n ∈ ns, 0 ≤ n.index := by
                intro ns
                induction ns with
                | nil => intro _ _ n hn; cases hn
                | cons m ms ihm =>
                  intro base hm n hn
                  rcases List.mem_cons.mp hn with rfl | hn
                  · rw [hm.1]; omega
                  · exact ihm (base + 1) hm.2 n hn
              exact aux ns 0 hmo _ h1
            refine ⟨by omega, ?_⟩
            rw [at?_isSome_iff]
            omega
      | build out => exact ho
      | reset =>
        intro i c he
        obtain ⟨idx, ch, b, tr, hn, hc⟩ := he
        obtain ⟨k, rfl, hk⟩ := at?_some hn
        simp only [step, reset] at hk
        rcases k with _ | k
        · cases hk; cases hc
        · simp at hk
  have ho := key ops hok hf
  obtain ⟨ch, hroot⟩ := (C39_wellformed isEnv ops hok).root
  obtain ⟨fuel, out, hd⟩ := C40_returns (run isEnv reset ops).nodes (fun i => ((run isEnv reset ops : St Mat).nodes.length - i).toNat) (by
      have := at?_nat (run isEnv reset ops : St Mat).nodes 0
      simp only [Nat.cast_zero] at this
      rw [this, hroot]; rfl) (by
      intro i c _ he
      obtain ⟨x, y⟩ := ho i c he
      refine ⟨y, ?_⟩
      rw [at?_isSome_iff] at y
      omega)
  exact ⟨fuel, out, hd, C40_every_path_once _ fuel out hd⟩

/-- Remark: add_child accepts a cycle, and then every traversal (hence build) recurses without end. -/
theorem C40_remark_cycle_accepted : ∃ ops : List (Op ℕ), (∀ op ∈ ops, OpOk op) ∧ ∀ fuel out, traverse (run (fun _ => false) reset ops).nodes fuel ≠ .done out := by
  refine ⟨[.createGroup 1, .addChild 0 1, .addChild 1 1], by intro op hop; simp at hop; rcases hop with rfl | rfl | rfl <;> trivial, fun fuel out => ?_⟩
  have e1 : Edge (run (fun _ => false) reset [.createGroup 1, .addChild 0 1, .addChild 1 1] : St ℕ).nodes 1 1 := ⟨1, [1], false, some 1, rfl, by simp⟩
  have e0 : Edge (run (fun _ => false) reset [.createGroup 1, .addChild 0 1, .addChild 1 1] : St ℕ).nodes 0 1 := ⟨0, [1], false, none, rfl, by simp⟩
  exact C40_cycle _ 1 (.single e0) (.single e1) fuel out

/-- Non-vacuity: two instances of one primitive under different transforms are visited twice, with both transforms. -/
example : traverse (run (fun _ => false) (reset : St ℕ) [.createGroup 2, .createGroup 3, .createPrimitive ⟨some 0, some 0, none, none, none⟩, .addChild 1 3, .addChild 2 3, .addChild 0 1, .addChild 0 2]).nodes 5 =
    .done [(0, 1), (1, 1), (3, 2), (2, 1), (3, 3)] := by decide

/-! ### C41: light tables -/

/-- The visited light primitives, in order, with their transforms. -/
def lightsOf (nodes : List (Node Mat)) (out : List (Int × Mat)) : List (Mat × Int) :=
  out.filterMap (fun v => match at? nodes v.1 with
    | some (.prim idx p) => if p.light.isSome then some (v.2, idx) else none
    | _ => none)

theorem buildLights_spec (st : St Mat) (out : List (Int × Mat)) : (buildLights st out).lights = lightsOf st.nodes out ∧ (buildLights st out).nodes = st.nodes ∧
    (∀ k i, (buildLights st out).lightMap k = some i → ∃ T, (buildLights st out).lights[i]? = some (T, k)) ∧
    (∀ (i : ℕ) T k, (buildLights st out).lights[i]? = some (T, k) → ∃ j, (buildLights st out).lightMap k = some j ∧ i ≤ j) := by
  induction out using List.reverseRecOn with
  | nil => exact ⟨rfl, rfl, by intro k i h; simp [buildLights] at h, by intro i T k h; simp [buildLights] at h⟩
  | append_singleton out v ih =>
    obtain ⟨h1, h2, h3, h4⟩ := ih
    have hfold : out.foldl (lightStep st.nodes) (fun _ => none, []) = ((buildLights st out).lightMap, (buildLights st out).lights) := rfl
    have e : (buildLights st (out ++ [v])) = { st with lightMap := (lightStep st.nodes ((buildLights st out).lightMap, (buildLights st out).lights) v).1, lights := (lightStep st.nodes ((buildLights st out).lightMap, (buildLights st out).lights) v).2 } := by
      unfold buildLights
      rw [List.foldl_append]
      rfl
    have hl : lightsOf st.nodes (out ++ [v]) = lightsOf st.nodes out ++ lightsOf st.nodes [v] := by simp [lightsOf, List.filterMap_append]
    generalize hB : buildLights st out = B at h1 h2 h3 h4 e
    rw [e, hl, ← h1]
    by_cases hv : ∃ idx p, at? st.nodes v.1 = some (.prim idx p) ∧ p.light.isSome = true
    · obtain ⟨idx, p, hn, hp⟩ := hv
      have e1 : lightStep st.nodes (B.lightMap, B.lights) v = (fun k => if k = idx then some B.lights.length else B.lightMap k, B.lights ++ [(v.2, idx)]) := by
        simp only [lightStep, hn, hp, if_true]
      have e2 : lightsOf st.nodes [v] = [(v.2, idx)] := by simp [lightsOf, hn, hp]
      rw [e1, e2]
      refine ⟨rfl, rfl, ?_, ?_⟩
      · intro k i h
        simp only at h ⊢
        split at h
        · next hk => subst hk; cases h; exact ⟨v.2, by simp⟩
        · obtain ⟨T, hT⟩ := h3 k i h
          have hi : i < B.lights.length := by by_contra hc; rw [List.getElem?_eq_none (by omega)] at hT; cases hT
          exact ⟨T, by rw [List.getElem?_append_left hi]; exact hT⟩
      · intro i T k h
        simp only at h ⊢
        rcases Nat.lt_trichotomy i B.lights.length with hi | hi | hi
        · rw [List.getElem?_append_left hi] at h
          obtain ⟨j, hj, hij⟩ := h4 i T k h
          split
          · exact ⟨_, rfl, hi.le⟩
          · exact ⟨j, hj, hij⟩
        · subst hi
          simp at h
          rw [if_pos h.2.symm]
          exact ⟨_, rfl, le_refl _⟩
        · rw [List.getElem?_eq_none (by simp; omega)] at h; cases h
    · have e1 : lightStep st.nodes (B.lightMap, B.lights) v = (B.lightMap, B.lights) := by
        unfold lightStep
        split
        · next idx p hn =>
          rw [if_neg]
          intro hp
          exact hv ⟨idx, p, hn, hp⟩
        · rfl
      have e2 : lightsOf st.nodes [v] = [] := by
        simp only [lightsOf, List.filterMap_cons, List.filterMap_nil]
        split
        · rfl
        · next b hb =>
          split at hb
          · next idx p hn =>
            split at hb
            · next hp => exact absurd ⟨idx, p, hn, hp⟩ hv
            · cases hb
          · cases hb
      rw [e1, e2, List.append_nil]
      exact ⟨rfl, rfl, h3, h4⟩

/-- A light primitive at node j, reached along the path p with transform T. -/
def LightPath [Monoid Mat] (nodes : List (Node Mat)) (p : List ℕ) (j : Int) (T : Mat) : Prop :=
  ∃ pr ts, Follows nodes 0 p j ts ∧ primAt nodes j = some pr ∧ pr.light.isSome = true ∧ T = ts.prod

theorem mem_lightsOf {isEnv} [Monoid Mat] {st : St Mat} (hw : WF isEnv st) {out : List (Int × Mat)} (he : Enumerates st.nodes 0 1 out) (T : Mat) (j : Int) :
    (T, j) ∈ lightsOf st.nodes out ↔ ∃ p, LightPath st.nodes p j T := by
  obtain ⟨ps, hnd, hmem, hf⟩ := he
  unfold lightsOf
  rw [List.mem_filterMap]
  constructor
  · rintro ⟨v, hv, e⟩
    split at e
    · next idx pr hn =>
      split at e
      · next hl =>
        cases e
        obtain ⟨k, hk, hn'⟩ := at?_some hn
        have hidx := hw.pos k _ hn'
        simp only [Node.index] at hidx
        obtain ⟨n, hn2⟩ := List.mem_iff_getElem?.mp hv
        have hlen := hf.length_eq
        have : n < ps.length := by
          have : n < out.length := by by_contra hc; rw [List.getElem?_eq_none (by omega)] at hn2; cases hn2
          omega
        have hrel := (List.forall₂_iff_get.mp hf).2 n this (by omega)
        obtain ⟨ts, hfo, hT⟩ := hrel
        have hget : out.get ⟨n, by omega⟩ = v := by
          rw [List.get_eq_getElem]; exact Option.some.inj ((List.getElem?_eq_getElem (by omega)).symm.trans hn2)
        rw [hget] at hfo hT
        have hvj : v.1 = j := by omega
        rw [hvj] at hfo hn
        exact ⟨_, pr, ts, hfo, by simp [primAt, hn], hl, by rw [hT, one_mul]⟩
      · cases e
    · cases e
  · rintro ⟨p, pr, ts, hfo, hpr, hl, rfl⟩
    have hp := (hmem p).mpr ⟨j, ts, hfo⟩
    obtain ⟨n, hn⟩ := List.mem_iff_getElem?.mp hp
    have hlt : n < ps.length := by by_contra hc; rw [List.getElem?_eq_none (by omega)] at hn; cases hn
    have hlen := hf.length_eq
    obtain ⟨ts', hfo', hT⟩ := (List.forall₂_iff_get.mp hf).2 n hlt (by omega)
    have hget : ps.get ⟨n, hlt⟩ = p := by rw [List.get_eq_getElem]; exact Option.some.inj ((List.getElem?_eq_getElem hlt).symm.trans hn)
    rw [hget] at hfo'
    -- a path determines its end and transforms
    have det : ∀ i p j ts, Follows st.nodes i p j ts → ∀ j' ts', Follows st.nodes i p j' ts' → j = j' ∧ ts = ts' := by
      intro i p j ts h
      induction h with
      | nil i n h => intro j' ts' h'; cases h'; exact ⟨rfl, rfl⟩
      | cons i idx ch b tr k c p j ts h hk _ ih =>
        intro j' ts' h'
        cases h' with
        | cons _ idx' ch' b' tr' _ c' _ _ ts2 h2 hk2 hf2 =>
          rw [h] at h2; cases h2
          rw [hk] at hk2; cases hk2
          obtain ⟨a, b⟩ := ih _ _ hf2
          exact ⟨a, by rw [b]⟩
    obtain ⟨e1, e2⟩ := det 0 p j ts hfo _ _ hfo'
    refine ⟨out.get ⟨n, by omega⟩, List.get_mem _ _, ?_⟩
    unfold primAt at hpr
    split at hpr
    · next idx q hq =>
      obtain ⟨k, hk, hn'⟩ := at?_some hq
      have hidx := hw.pos k _ hn'
      simp only [Node.index] at hidx
      cases hpr
      rw [← e1, hq]
      simp only [hl, if_true, Option.some.injEq, Prod.mk.injEq]
      exact ⟨by rw [hT, one_mul, e2], by omega⟩
    · cases hpr

variable [Monoid Mat]

/-- C41. After build the selectable lights are exactly the light primitives reachable in the scene, with the transforms of the paths leading to them. -/
theorem C41_selectable {isEnv} (st : St Mat) (hw : WF isEnv st) (fuel : ℕ) (out : List (Int × Mat)) (h : traverse st.nodes fuel = .done out) (T : Mat) (j : Int) :
    (∃ i : ℕ, lightPrimitiveIndexAt (buildLights st out) i = some (T, j)) ↔ ∃ p, LightPath st.nodes p j T := by
  rw [← mem_lightsOf hw (C40_every_path_once _ fuel out h), ← (buildLights_spec st out).1, List.mem_iff_getElem?]
  constructor
  · rintro ⟨i, hi⟩
    unfold lightPrimitiveIndexAt at hi
    rw [if_neg (by omega)] at hi
    exact ⟨i, by simpa using hi⟩
  · rintro ⟨i, hi⟩
    refine ⟨i, ?_⟩
    unfold lightPrimitiveIndexAt
    rw [if_neg (by omega)]
    simpa using hi

/-- C41. A node maps to a light index exactly if it is a reachable light primitive, and the light index it maps to names that node. -/
theorem C41_node_to_light {isEnv} (st : St Mat) (hw : WF isEnv st) (fuel : ℕ) (out : List (Int × Mat)) (h : traverse st.nodes fuel = .done out) (j : Int) :
    ((lightIndexAt (buildLights st out) j).isSome ↔ ∃ p T, LightPath st.nodes p j T) ∧
    (∀ i, lightIndexAt (buildLights st out) j = some i → ∃ T, lightPrimitiveIndexAt (buildLights st out) i = some (T, j)) := by
  obtain ⟨h1, h2, h3, h4⟩ := buildLights_spec st out
  have key : ∀ i : ℕ, ∀ x, lightPrimitiveIndexAt (buildLights st out) i = some x ↔ (buildLights st out).lights[i]? = some x := by
    intro i x
    unfold lightPrimitiveIndexAt
    rw [if_neg (by omega)]
    simp
  constructor
  · constructor
    · intro hs
      obtain ⟨i, hi⟩ := Option.isSome_iff_exists.mp hs
      obtain ⟨T, hT⟩ := h3 j i hi
      obtain ⟨p, hp⟩ := (C41_selectable st hw fuel out h T j).mp ⟨i, (key i _).mpr hT⟩
      exact ⟨p, T, hp⟩
    · rintro ⟨p, T, hp⟩
      obtain ⟨i, hi⟩ := (C41_selectable st hw fuel out h T j).mpr ⟨p, hp⟩
      obtain ⟨k, hk, _⟩ := h4 i T j ((key i _).mp hi)
      exact Option.isSome_iff_exists.mpr ⟨k, hk⟩
  · intro i hi
    obtain ⟨T, hT⟩ := h3 j i hi
    exact ⟨T, (key i _).mpr hT⟩

/-- C41 (partial). If no light primitive is instanced (at most one path leads to each), node-to-light and light-to-node are mutually inverse. Missing: instanced lights (next theorem). -/
theorem C41_inverse_partial {isEnv} (st : St Mat) (hw : WF isEnv st) (fuel : ℕ) (out : List (Int × Mat)) (h : traverse st.nodes fuel = .done out)
    (huniq : ∀ p q j T T', LightPath st.nodes p j T → LightPath st.nodes q j T' → p = q) (i : ℕ) (T : Mat) (j : Int)
    (hi : lightPrimitiveIndexAt (buildLights st out) i = some (T, j)) : lightIndexAt (buildLights st out) j = some i := by
  obtain ⟨h1, h2, h3, h4⟩ := buildLights_spec st out
  have hi' : (buildLights st out).lights[i]? = some (T, j) := by
    unfold lightPrimitiveIndexAt at hi
    rw [if_neg (by omega)] at hi
    simpa using hi
  obtain ⟨k, hk, hik⟩ := h4 i T j hi'
  obtain ⟨T', hT'⟩ := h3 j k hk
  -- positions in the light list come from positions in the visit list, hence from distinct paths
  obtain ⟨ps, hnd, hmem, hf⟩ := C40_every_path_once _ fuel out h
  have inj : ∀ (out : List (Int × Mat)) (ps : List (List ℕ)), ps.Nodup → List.Forall₂ (fun p (v : Int × Mat) => ∃ ts, Follows st.nodes 0 p v.1 ts ∧ v.2 = 1 * ts.prod) ps out →
      ∀ (a b : ℕ) T T', (lightsOf st.nodes out)[a]? = some (T, j) → (lightsOf st.nodes out)[b]? = some (T', j) → a = b := by
    have hpath : ∀ p (v : Int × Mat) x, (∃ ts, Follows st.nodes 0 p v.1 ts ∧ v.2 = 1 * ts.prod) → x ∈ lightsOf st.nodes [v] → LightPath st.nodes p x.2 x.1 := by
      rintro p v x ⟨ts, hfo, hT⟩ hx
      simp only [lightsOf, List.mem_filterMap, List.mem_singleton] at hx
      obtain ⟨w, rfl, e⟩ := hx
      split at e
      · next idx pr hn =>
        split at e
        · next hl =>
          cases e
          obtain ⟨k, hk, hn'⟩ := at?_some hn
          have hidx := hw.pos k _ hn'
          simp only [Node.index] at hidx
          have : w.1 = idx := by omega
          rw [this] at hfo hn
          exact ⟨pr, ts, hfo, by simp [primAt, hn], hl, by rw [hT, one_mul]⟩
        · cases e
      · cases e
    have hone : ∀ v : Int × Mat, (lightsOf st.nodes [v]).length ≤ 1 := by
      intro v
      have := List.length_filterMap_le (fun v : Int × Mat => match at? st.nodes v.1 with
        | some (.prim idx p) => if p.light.isSome then some (v.2, idx) else none
        | _ => none) [v]
      simpa [lightsOf] using this
    intro out ps hnd hf
    induction hf with
    | nil => intro a b T T' ha; simp [lightsOf] at ha
    | @cons p v ps out hpv hrest ih =>
      obtain ⟨hnp, hnd'⟩ := List.nodup_cons.mp hnd
      have hl : lightsOf st.nodes (v :: out) = lightsOf st.nodes [v] ++ lightsOf st.nodes out := by
        rw [show v :: out = [v] ++ out from rfl]; simp only [lightsOf, List.filterMap_append]
      -- an element of the tail comes from another path
      have htail : ∀ (x : Mat × Int), x ∈ lightsOf st.nodes out → ∃ q ∈ ps, LightPath st.nodes q x.2 x.1 := by
        intro x hx
        clear ih hnd hnp hnd' hl
        induction hrest with
        | nil => simp [lightsOf] at hx
        | @cons q w ps out hq _ ih' =>
          have hl : lightsOf st.nodes (w :: out) = lightsOf st.nodes [w] ++ lightsOf st.nodes out := by
            rw [show w :: out = [w] ++ out from rfl]; simp only [lightsOf, List.filterMap_append]
          rw [hl] at hx
          rcases List.mem_append.mp hx with hx | hx
          · exact ⟨q, by simp, hpath q w x hq hx⟩
          · obtain ⟨q', hq', h'⟩ := ih' hx
            exact ⟨q', by simp [hq'], h'⟩
      have hcross : ∀ T T', (T, j) ∈ lightsOf st.nodes [v] → (T', j) ∈ lightsOf st.nodes out → False := by
        intro T T' h1 h2
        obtain ⟨q, hq, hl2⟩ := htail _ h2
        have := huniq p q j T T' (hpath p v _ hpv h1) hl2
        subst this
        exact hnp hq
      intro a b T T' ha hb
      rw [hl] at ha hb
      have h1 := hone v
      by_cases haL : a < (lightsOf st.nodes [v]).length <;> by_cases hbL : b < (lightsOf st.nodes [v]).length
      · omega
      · rw [List.getElem?_append_left haL] at ha
        rw [List.getElem?_append_right (by omega)] at hb
        exact absurd (hcross T T' (List.mem_of_getElem? ha) (List.mem_of_getElem? hb)) id
      · rw [List.getElem?_append_right (by omega)] at ha
        rw [List.getElem?_append_left hbL] at hb
        exact absurd (hcross T' T (List.mem_of_getElem? hb) (List.mem_of_getElem? ha)) id
      · rw [List.getElem?_append_right (by omega)] at ha hb
        have := ih hnd' _ _ T T' ha hb
        omega
  have := inj out ps hnd hf i k T T' (by rw [← h1]; exact hi') (by rw [← h1]; exact hT')
  rw [this]
  exact hk

/-- C41, negation. With a light primitive instanced twice, a selectable light's node maps back to another light index, whose transform is a different one. -/
theorem C41_negation_instanced : ∃ (ops : List (Op ℕ)) (out : List (Int × ℕ)), (∀ op ∈ ops, OpOk op) ∧ traverse (run (fun _ => false) reset ops).nodes 5 = .done out ∧
    lightPrimitiveIndexAt (buildLights (run (fun _ => false) reset ops) out) 0 = some (2, 3) ∧ lightIndexAt (buildLights (run (fun _ => false) reset ops) out) 3 = some 1 ∧
    lightPrimitiveIndexAt (buildLights (run (fun _ => false) reset ops) out) 1 = some (3, 3) := by
  refine ⟨[.createGroup 2, .createGroup 3, .createPrimitive ⟨some 0, some 0, some 0, none, none⟩, .addChild 1 3, .addChild 2 3, .addChild 0 1, .addChild 0 2],
    [(0, 1), (1, 1), (3, 2), (2, 1), (3, 3)], ?_, by decide, by decide, by decide, by decide⟩
  intro op hop
  simp at hop
  rcases hop with rfl | rfl | rfl | rfl | rfl | rfl | rfl <;> trivial

example : ∃ (ops : List (Op ℕ)) (out : List (Int × ℕ)), traverse (run (fun _ => false) reset ops).nodes 5 = .done out ∧ (lightsOf (run (fun _ => false) reset ops : St ℕ).nodes out).length = 2 :=
  ⟨[.createGroup 2, .createPrimitive ⟨none, none, some 0, none, none⟩, .createPrimitive ⟨none, none, some 1, none, none⟩, .addChild 1 2, .addChild 1 3, .addChild 0 1], [(0, 1), (1, 1), (2, 2), (3, 2)], by decide, by decide⟩

/-! ### C42: light selection -/

/-- C42. For n ≥ 1 lights and u in [0,1): a valid light index, chosen exactly for u in an interval of length 1/n, with probability 1/n, which is also the reported pmf; these sum to one. -/
theorem C42_uniform {K : Type} [Field K] [LinearOrder K] [IsStrictOrderedRing K] [FloorRing K] (n : ℕ) (hn : 0 < n) (u : K) (h0 : 0 ≤ u) (h1 : u < 1) :
    0 ≤ (sampleLightSelection n u).1 ∧ (sampleLightSelection n u).1 < n ∧
    (∀ i : Int, (sampleLightSelection n u).1 = i ↔ (i : K) / n ≤ u ∧ u < (i + 1 : K) / n) ∧
    (∀ i, (sampleLightSelection n u).2 = pdfLightSelection n i ∧ pdfLightSelection (K := K) n i = some (1 / (n : K))) ∧
    (List.replicate n (1 / n : K)).sum = 1 := by
  have hnK : (0 : K) < n := by exact_mod_cast hn
  have hun : 0 ≤ u * n := mul_nonneg h0 hnK.le
  have ht : trunc (u * n) = ⌊u * n⌋ := by unfold trunc; rw [if_neg (not_lt.mpr hun)]
  have hf0 : 0 ≤ ⌊u * n⌋ := Int.floor_nonneg.mpr hun
  have hf1 : ⌊u * n⌋ < n := by
    rw [Int.floor_lt]
    simpa using mul_lt_mul_of_pos_right h1 hnK
  have hs : (sampleLightSelection n u).1 = ⌊u * n⌋ := by
    unfold sampleLightSelection
    rw [ht, max_eq_left hf0, min_eq_left (by omega)]
  refine ⟨by rw [hs]; exact hf0, by rw [hs]; exact hf1, ?_, ?_, ?_⟩
  · intro i
    rw [hs, Int.floor_eq_iff, div_le_iff₀ hnK, lt_div_iff₀ hnK]
  · intro i
    unfold sampleLightSelection pdfLightSelection
    rw [if_neg (by omega)]
    exact ⟨rfl, rfl⟩
  · rw [List.sum_replicate, nsmul_eq_mul]
    field_simp

omit [Monoid Mat] in
/-- C42, negation of the last clause: with no light, selection still answers, with the invalid index -1 and an infinite probability (looking that index up throws). -/
theorem C42_negation_no_light {K : Type} [Field K] [LinearOrder K] [IsStrictOrderedRing K] [FloorRing K] (u : K) (st : St Mat) :
    sampleLightSelection 0 u = (-1, none) ∧ lightPrimitiveIndexAt st (-1) = none := by
  constructor
  · unfold sampleLightSelection trunc
    simp
  · rfl

example : (sampleLightSelection 3 (1/2 : ℚ)).1 = 1 := by
  have := (C42_uniform 3 (by norm_num) (1/2 : ℚ) (by norm_num) (by norm_num)).2.2.1 1
  rw [this]
  norm_num

end LM.Scene
