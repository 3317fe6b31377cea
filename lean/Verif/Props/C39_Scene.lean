import Verif.Model.Scene
import Mathlib.Data.List.Forall2
import Mathlib.Logic.Relation
import Mathlib.Algebra.BigOperators.Group.List.Basic
import Mathlib.Tactic.Linarith
import Mathlib.Tactic.FieldSimp
import Mathlib.Data.Rat.Floor
import Mathlib.Data.List.Nodup
namespace LM.Scene
variable {Mat : Type}

/-! ### C39: handles -/

/-- The primitive at a node, if it is one. -/
def primAt (nodes : List (Node Mat)) (i : Int) : Option Prim :=
  match at? nodes i with
  | some (.prim _ p) => some p
  | _ => none

/-- Specification of a well-formed scene. -/
structure WF (isEnv : ℕ → Bool) (st : St Mat) : Prop where
  pos : ∀ (i : ℕ) (n : Node Mat), st.nodes[i]? = some n → n.index = i
  root : ∃ ch, st.nodes[0]? = some (.group 0 ch false none)
  cam : ∀ i, st.camera = some i → ∃ p, primAt st.nodes i = some p ∧ p.camera.isSome
  env : ∀ i, st.envLight = some i → ∃ p, primAt st.nodes i = some p ∧ p.light.any isEnv = true
  med : ∀ i, st.medium = some i → ∃ p, primAt st.nodes i = some p ∧ p.medium.isSome

/-- What a user may rely on for an existing node: primitives are unchanged; groups keep their transform and only gain children. -/
def Same : Node Mat → Node Mat → Prop
  | .prim i p, .prim j q => i = j ∧ p = q
  | .group i ch b tr, .group j ch' b' tr' => i = j ∧ b = b' ∧ tr = tr' ∧ ch <+: ch'
  | _, _ => False

theorem Same.refl (n : Node Mat) : Same n n := by cases n <;> simp [Same]
theorem Same.trans {a b c : Node Mat} (h1 : Same a b) (h2 : Same b c) : Same a c := by
  cases a <;> cases b <;> cases c <;> simp only [Same] at h1 h2 ⊢
  · exact ⟨h1.1.trans h2.1, h1.2.trans h2.2⟩
  · exact ⟨h1.1.trans h2.1, h1.2.1.trans h2.2.1, h1.2.2.1.trans h2.2.2.1, h1.2.2.2.trans h2.2.2.2⟩

def Keeps (ns ns' : List (Node Mat)) : Prop := ∀ (i : ℕ) (n : Node Mat), ns[i]? = some n → ∃ n', ns'[i]? = some n' ∧ Same n n'

theorem Keeps.refl (ns : List (Node Mat)) : Keeps ns ns := fun _ n h => ⟨n, h, Same.refl n⟩
theorem Keeps.trans {a b c : List (Node Mat)} (h1 : Keeps a b) (h2 : Keeps b c) : Keeps a c := by
  intro i n h
  obtain ⟨n1, e1, s1⟩ := h1 i n h
  obtain ⟨n2, e2, s2⟩ := h2 i n1 e1
  exact ⟨n2, e2, s1.trans s2⟩
theorem Keeps.append (ns : List (Node Mat)) (l : List (Node Mat)) : Keeps ns (ns ++ l) := by
  intro i n h
  have hi : i < ns.length := by by_contra hc; rw [List.getElem?_eq_none (by omega)] at h; cases h
  exact ⟨n, by rw [List.getElem?_append_left hi]; exact h, Same.refl n⟩

theorem at?_nat (nodes : List (Node Mat)) (i : ℕ) : at? nodes (i : Int) = nodes[i]? := by
  unfold at?; rw [if_neg (by omega)]; simp

theorem at?_some {nodes : List (Node Mat)} {i : Int} {n : Node Mat} (h : at? nodes i = some n) : ∃ k : ℕ, i = k ∧ nodes[k]? = some n := by
  unfold at? at h
  split at h
  · cases h
  · exact ⟨i.toNat, by omega, h⟩

theorem primAt_keeps {ns ns' : List (Node Mat)} (h : Keeps ns ns') {i : Int} {p : Prim} (hp : primAt ns i = some p) : primAt ns' i = some p := by
  unfold primAt at hp
  split at hp
  · next k q hq =>
    obtain ⟨m, rfl, hm⟩ := at?_some hq
    obtain ⟨n', e', s'⟩ := h m _ hm
    cases n' with
    | prim j r =>
      simp only [Same] at s'
      unfold primAt
      rw [at?_nat, e', ← s'.2]
      exact hp
    | group => simp [Same] at s'
  · cases hp

theorem getElem?_snoc (ns : List (Node Mat)) (n : Node Mat) (i : ℕ) (m : Node Mat) (h : (ns ++ [n])[i]? = some m) : ns[i]? = some m ∨ (i = ns.length ∧ m = n) := by
  rcases Nat.lt_trichotomy i ns.length with hi | hi | hi
  · rw [List.getElem?_append_left hi] at h; exact .inl h
  · subst hi; simp at h; exact .inr ⟨rfl, h.symm⟩
  · rw [List.getElem?_eq_none (by simp; omega)] at h; cases h

theorem primAt_snoc {ns : List (Node Mat)} {m : Node Mat} {i : Int} {p : Prim} (hp : primAt (ns ++ [m]) i = some p) : primAt ns i = some p ∨ (i = ns.length ∧ ∃ k, m = .prim k p) := by
  unfold primAt at hp ⊢
  split at hp
  · next k q hq =>
    obtain ⟨mm, rfl, hm⟩ := at?_some hq
    rcases getElem?_snoc _ _ _ _ hm with h1 | ⟨h1, h2⟩
    · left; rw [at?_nat, h1]; exact hp
    · right; exact ⟨by omega, k, by rw [← h2, Option.some.inj hp]⟩
  · cases hp

/-- Pushing a node whose index is its position, without touching the rest. -/
theorem WF.push {isEnv} {st : St Mat} (h : WF isEnv st) (n : Node Mat) (hn : n.index = st.nodes.length) : WF isEnv { st with nodes := st.nodes ++ [n] } := by
  obtain ⟨h1, ⟨ch, h2⟩, h3, h4, h5⟩ := h
  have hk := Keeps.append st.nodes [n]
  refine ⟨?_, ?_, ?_, ?_, ?_⟩
  · intro i m hm
    rcases getElem?_snoc _ _ _ _ hm with hm | ⟨rfl, rfl⟩
    · exact h1 i m hm
    · exact hn
  · have : 0 < st.nodes.length := by by_contra hc; rw [List.getElem?_eq_none (by omega)] at h2; cases h2
    exact ⟨ch, by simp only [List.getElem?_append_left this, h2]⟩
  · intro i hi; obtain ⟨p, a, b⟩ := h3 i hi; exact ⟨p, primAt_keeps hk a, b⟩
  · intro i hi; obtain ⟨p, a, b⟩ := h4 i hi; exact ⟨p, primAt_keeps hk a, b⟩
  · intro i hi; obtain ⟨p, a, b⟩ := h5 i hi; exact ⟨p, primAt_keeps hk a, b⟩

theorem addChild_spec {isEnv} (st : St Mat) (a b : Int) (h : WF isEnv st) : WF isEnv (addChild st a b).1 ∧ Keeps st.nodes (addChild st a b).1.nodes ∧
    (addChild st a b).1.nodes.length = st.nodes.length ∧ (addChild st a b).1.camera = st.camera ∧ (addChild st a b).1.envLight = st.envLight ∧
    (∀ i, primAt (addChild st a b).1.nodes i = primAt st.nodes i) := by
  unfold addChild
  split
  · exact ⟨h, Keeps.refl _, rfl, rfl, rfl, fun _ => rfl⟩
  · next hr =>
    split
    · next i ch bb tr hg =>
      have hlt : a.toNat < st.nodes.length := by omega
      have hk : Keeps st.nodes (st.nodes.set a.toNat (.group i (ch ++ [b]) bb tr)) := by
        intro k n hn
        by_cases hka : a.toNat = k
        · subst hka
          rw [hg] at hn
          obtain rfl := Option.some.inj hn
          exact ⟨_, List.getElem?_set_self hlt, rfl, rfl, rfl, List.prefix_append _ _⟩
        · exact ⟨n, by rw [List.getElem?_set_ne hka]; exact hn, Same.refl n⟩
      obtain ⟨h1, ⟨ch0, h2⟩, h3, h4, h5⟩ := h
      refine ⟨⟨?_, ?_, ?_, ?_, ?_⟩, hk, by simp, rfl, rfl, ?_⟩
      · intro k n hn
        by_cases hka : a.toNat = k
        · subst hka
          simp only [List.getElem?_set_self hlt] at hn
          obtain rfl := Option.some.inj hn
          exact (h1 _ _ hg :)
        · simp only [List.getElem?_set_ne hka] at hn
          exact h1 _ _ hn
      · obtain ⟨n', e', s'⟩ := hk 0 _ h2
        cases n' with
        | prim => simp [Same] at s'
        | group j c' b' t' =>
          simp only [Same] at s'
          obtain ⟨e1, e2, e3, _⟩ := s'
          subst e1 e2 e3
          exact ⟨c', e'⟩
      · intro k hk'; obtain ⟨p, x, y⟩ := h3 k hk'; exact ⟨p, primAt_keeps hk x, y⟩
      · intro k hk'; obtain ⟨p, x, y⟩ := h4 k hk'; exact ⟨p, primAt_keeps hk x, y⟩
      · intro k hk'; obtain ⟨p, x, y⟩ := h5 k hk'; exact ⟨p, primAt_keeps hk x, y⟩
      · intro k
        unfold primAt at?
        by_cases hk0 : k < 0
        · simp [hk0]
        · simp only [hk0, if_false]
          by_cases hka : a.toNat = k.toNat
          · rw [← hka, List.getElem?_set_self hlt, hg]
          · rw [List.getElem?_set_ne hka]
    · exact ⟨h, Keeps.refl _, rfl, rfl, rfl, fun _ => rfl⟩

theorem modelPrimitive_spec {isEnv} (a : Int) (st : St Mat) (t) (h : WF isEnv st) : WF isEnv (modelPrimitive a st t) ∧ Keeps st.nodes (modelPrimitive a st t).nodes ∧
    (modelPrimitive a st t).envLight = st.envLight ∧
    (∀ i p, primAt (modelPrimitive a st t).nodes i = some p → primAt st.nodes i = some p ∨ p = ⟨t.1, t.2.1, t.2.2, none, none⟩) := by
  unfold modelPrimitive
  have hw := h.push (.prim st.nodes.length ⟨t.1, t.2.1, t.2.2, none, none⟩) rfl
  obtain ⟨h1, h2, _, _, h4, h5⟩ := addChild_spec { st with nodes := st.nodes ++ [.prim st.nodes.length ⟨t.1, t.2.1, t.2.2, none, none⟩] } a st.nodes.length hw
  refine ⟨h1, (Keeps.append _ _).trans h2, h4, ?_⟩
  intro i p hp
  simp only at hp
  rw [h5] at hp
  rcases primAt_snoc hp with hp | ⟨_, k, hk⟩
  · exact .inl hp
  · cases hk; exact .inr rfl

theorem modelPrimitives_spec {isEnv} (a : Int) (ts : List (Option ℕ × Option ℕ × Option ℕ)) : ∀ st : St Mat, WF isEnv st → WF isEnv (ts.foldl (modelPrimitive a) st) ∧ Keeps st.nodes (ts.foldl (modelPrimitive a) st).nodes ∧
    (ts.foldl (modelPrimitive a) st).envLight = st.envLight ∧
    (∀ i p, primAt (ts.foldl (modelPrimitive a) st).nodes i = some p → primAt st.nodes i = some p ∨ ∃ t ∈ ts, p = ⟨t.1, t.2.1, t.2.2, none, none⟩) := by
  induction ts with
  | nil => intro st h; exact ⟨h, Keeps.refl _, rfl, fun i p hp => .inl hp⟩
  | cons t ts ih =>
    intro st h
    obtain ⟨h1, h2, h3, h4⟩ := modelPrimitive_spec a st t h
    obtain ⟨g1, g2, g3, g4⟩ := ih _ h1
    refine ⟨g1, h2.trans g2, g3.trans h3, ?_⟩
    intro i p hp
    rcases g4 i p hp with hp | ⟨t', ht, e⟩
    · rcases h4 i p hp with hp | e
      · exact .inl hp
      · exact .inr ⟨t, by simp, e⟩
    · exact .inr ⟨t', by simp [ht], e⟩

/-- Contract of Model::foreach_node: nodes are enumerated with their own indices in order. -/
def ModelOk (base : ℕ) : List (Node Mat) → Prop
  | [] => True
  | n :: ns => n.index = base ∧ ModelOk (base + 1) ns

theorem modelNode_spec {isEnv} (off : ℕ) (ns : List (Node Mat)) : ∀ (st : St Mat) (base : ℕ), ModelOk base ns → st.nodes.length = off + base → WF isEnv st →
    WF isEnv (ns.foldl (modelNode off) st) ∧ Keeps st.nodes (ns.foldl (modelNode off) st).nodes ∧ (ns.foldl (modelNode off) st).envLight = st.envLight ∧
    (ns.foldl (modelNode off) st).nodes.length = st.nodes.length + ns.length ∧
    (∀ i p, primAt (ns.foldl (modelNode off) st).nodes i = some p → primAt st.nodes i = some p ∨ ∃ k, Node.prim k p ∈ ns) := by
  induction ns with
  | nil => intro st base _ _ h; exact ⟨h, Keeps.refl _, rfl, rfl, fun i p hp => .inl hp⟩
  | cons n ns ih =>
    intro st base hok hl h
    obtain ⟨hi, hrest⟩ := hok
    have key : WF isEnv (modelNode off st n) ∧ Keeps st.nodes (modelNode off st n).nodes ∧ (modelNode off st n).envLight = st.envLight ∧ (modelNode off st n).nodes.length = st.nodes.length + 1 ∧
        (∀ i p, primAt (modelNode off st n).nodes i = some p → primAt st.nodes i = some p ∨ ∃ k, n = Node.prim k p) := by
      have snoc : ∀ m : Node Mat, ∀ i p, primAt (st.nodes ++ [m]) i = some p → primAt st.nodes i = some p ∨ ∃ k, m = Node.prim k p := by
        intro m i p hp
        rcases primAt_snoc hp with hp | ⟨_, hk⟩
        · exact .inl hp
        · exact .inr hk
      cases n with
      | group j ch b tr =>
        simp only [Node.index] at hi
        refine ⟨h.push _ ?_, Keeps.append _ _, rfl, by simp [modelNode], ?_⟩
        · simp only [Node.index]; omega
        · intro i p hp
          rcases snoc _ i p hp with hp | ⟨k, hk⟩
          · exact .inl hp
          · cases hk
      | prim j p =>
        simp only [Node.index] at hi
        have hw := h.push (.prim (j + off) p) (by simp only [Node.index]; omega)
        have hs : ∀ i q, primAt (st.nodes ++ [Node.prim (j + off) p]) i = some q → primAt st.nodes i = some q ∨ ∃ k, Node.prim j p = Node.prim (Mat := Mat) k q := by
          intro i q hq
          rcases snoc _ i q hq with hq | ⟨k, hk⟩
          · exact .inl hq
          · cases hk; exact .inr ⟨j, rfl⟩
        by_cases hc : p.camera.isSome = true
        · simp only [modelNode, hc, if_true]
          refine ⟨⟨hw.1, hw.2, ?_, hw.4, hw.5⟩, Keeps.append _ _, trivial, by simp, hs⟩
          intro i hi'
          have hi2 := Option.some.inj hi'
          refine ⟨p, ?_, hc⟩
          have : i = ((st.nodes.length : ℕ) : Int) := by omega
          unfold primAt
          rw [this, at?_nat]
          simp
        · simp only [modelNode, if_neg hc]
          exact ⟨hw, Keeps.append _ _, trivial, by simp, hs⟩
    obtain ⟨k1, k2, k3, k4, k5⟩ := key
    obtain ⟨g1, g2, g3, g4, g5⟩ := ih _ (base + 1) hrest (by rw [k4]; omega) k1
    refine ⟨g1, k2.trans g2, g3.trans k3, by simp only [List.foldl_cons, List.length_cons]; rw [g4, k4]; omega, ?_⟩
    intro i p hp
    rcases g5 i p hp with hp | ⟨k, hk⟩
    · rcases k5 i p hp with hp | ⟨k, hk⟩
      · exact .inl hp
      · exact .inr ⟨k, by simp [hk]⟩
    · exact .inr ⟨k, by simp [hk]⟩

/-- The only contract on calls: a model handed to create_group_from_model enumerates its nodes with their own indices. -/
def OpOk : Op Mat → Prop
  | .createGroupFromModel (some ns) => ModelOk 0 ns
  | _ => True

theorem createPrimitive_cases (isEnv : ℕ → Bool) (st : St Mat) (p : Prim) :
    ((createPrimitive isEnv st p).2 = .throw ∧ (createPrimitive isEnv st p).1 = st) ∨
    ((createPrimitive isEnv st p).2 = .index st.nodes.length ∧ (p.light.any isEnv = true → st.envLight = none) ∧
     (createPrimitive isEnv st p).1 = ⟨st.nodes ++ [.prim st.nodes.length p], if p.camera.isSome then some (st.nodes.length : Int) else st.camera, st.lights, st.lightMap,
      if p.light.any isEnv then some (st.nodes.length : Int) else st.envLight, if p.medium.isSome then some (st.nodes.length : Int) else st.medium⟩) := by
  unfold createPrimitive
  simp only
  split
  · exact .inl ⟨rfl, rfl⟩
  · split
    · exact .inl ⟨rfl, rfl⟩
    · next hcl =>
      split
      · exact .inl ⟨rfl, rfl⟩
      · have hnl : p.camera.isSome = true → p.light.any isEnv = false := by
          intro hc
          cases hl : p.light with
          | none => rfl
          | some x => rw [hl] at hcl; exact absurd ⟨hc, rfl⟩ hcl
        have hen : st.envLight.isSome = false → st.envLight = none := by simp
        cases hc : p.camera.isSome <;> cases he : p.light.any isEnv <;> cases hm : p.medium.isSome <;> cases hs : st.envLight.isSome <;>
          simp only [Bool.false_eq_true, if_false, if_true, false_and, and_false, and_self, hs, true_and, reduceCtorEq, false_implies, or_false, or_true, and_true, true_implies, forall_const]
        all_goals first | exact hen hs | (rw [hnl hc] at he; cases he) | exact .inr (hen hs)

theorem wf_step (isEnv : ℕ → Bool) (st : St Mat) (op : Op Mat) (h : WF isEnv st) (hok : OpOk op) :
    WF isEnv (step isEnv st op).1 ∧ (op ≠ .reset → Keeps st.nodes (step isEnv st op).1.nodes) := by
  cases op with
  | createPrimitive p =>
    simp only [step]
    rcases createPrimitive_cases isEnv st p with ⟨_, e⟩ | ⟨_, _, e⟩
    · rw [e]; exact ⟨h, fun _ => Keeps.refl _⟩
    · rw [e]
      have hw := h.push (.prim st.nodes.length p) rfl
      have hself : primAt (st.nodes ++ [Node.prim (st.nodes.length : Int) p]) (st.nodes.length : Int) = some p := by
        unfold primAt; rw [at?_nat]; simp
      refine ⟨⟨hw.1, hw.2, ?_, ?_, ?_⟩, fun _ => Keeps.append _ _⟩
      · intro i hi
        simp only at hi ⊢
        split at hi
        · next hc => rw [← Option.some.inj hi]; exact ⟨p, hself, hc⟩
        · exact hw.3 i hi
      · intro i hi
        simp only at hi ⊢
        split at hi
        · next hc => rw [← Option.some.inj hi]; exact ⟨p, hself, hc⟩
        · exact hw.4 i hi
      · intro i hi
        simp only at hi ⊢
        split at hi
        · next hc => rw [← Option.some.inj hi]; exact ⟨p, hself, hc⟩
        · exact hw.5 i hi
  | createGroup tr => exact ⟨h.push _ rfl, fun _ => Keeps.append _ _⟩
  | createInstanceGroup => exact ⟨h.push _ rfl, fun _ => Keeps.append _ _⟩
  | addChild a b =>
    obtain ⟨h1, h2, _⟩ := addChild_spec st a b h
    exact ⟨h1, fun _ => h2⟩
  | addChildFromModel a m =>
    simp only [step, addChildFromModel]
    split
    · exact ⟨h, fun _ => Keeps.refl _⟩
    · cases m with
      | none => exact ⟨h, fun _ => Keeps.refl _⟩
      | some ts =>
        obtain ⟨h1, h2, _⟩ := modelPrimitives_spec a ts st h
        exact ⟨h1, fun _ => h2⟩
  | createGroupFromModel m =>
    cases m with
    | none => exact ⟨h, fun _ => Keeps.refl _⟩
    | some ns =>
      obtain ⟨h1, h2, _⟩ := modelNode_spec st.nodes.length ns st 0 hok rfl h
      exact ⟨h1, fun _ => h2⟩
  | build out => exact ⟨⟨h.1, h.2, h.3, h.4, h.5⟩, fun _ => Keeps.refl _⟩
  | reset =>
    refine ⟨⟨?_, ⟨[], rfl⟩, ?_, ?_, ?_⟩, fun h => absurd rfl h⟩
    · intro i n hn
      simp only [step, reset] at hn
      rcases i with _ | i
      · cases hn; rfl
      · simp at hn
    · intro i hi; cases hi
    · intro i hi; cases hi
    · intro i hi; cases hi

theorem wf_init (isEnv : ℕ → Bool) : WF isEnv (reset : St Mat) := by
  refine ⟨?_, ⟨[], rfl⟩, ?_, ?_, ?_⟩
  · intro i n hn
    simp only [reset] at hn
    rcases i with _ | i
    · cases hn; rfl
    · simp at hn
  · intro i hi; cases hi
  · intro i hi; cases hi
  · intro i hi; cases hi

theorem wf_run (isEnv : ℕ → Bool) (ops : List (Op Mat)) : ∀ st : St Mat, WF isEnv st → (∀ op ∈ ops, OpOk op) → WF isEnv (run isEnv st ops) := by
  induction ops with
  | nil => intro st h _; exact h
  | cons op ops ih =>
    intro st h hok
    exact ih _ (wf_step isEnv st op h (hok op (by simp))).1 (fun o ho => hok o (by simp [ho]))

/-- C39. After every sequence of calls: each node's index is its position, the root is a group without transform, and the camera, environment light and medium indices name
    primitives that have such an asset. -/
theorem C39_wellformed (isEnv : ℕ → Bool) (ops : List (Op Mat)) (hok : ∀ op ∈ ops, OpOk op) : WF isEnv (run isEnv reset ops) := wf_run isEnv ops reset (wf_init isEnv) hok

/-- C39. Nodes stay what they are until reset: whatever calls follow, a node keeps its position, a primitive its assets and a group its transform and children, in order. -/
theorem C39_stable (isEnv : ℕ → Bool) (ops1 ops2 : List (Op Mat)) (h1 : ∀ op ∈ ops1, OpOk op) (h2 : ∀ op ∈ ops2, OpOk op) (hr : ∀ op ∈ ops2, op ≠ .reset) :
    Keeps (run isEnv reset ops1).nodes (run isEnv reset (ops1 ++ ops2)).nodes := by
  have gen : ∀ ops : List (Op Mat), ∀ st, WF isEnv st → (∀ op ∈ ops, OpOk op) → (∀ op ∈ ops, op ≠ .reset) → Keeps st.nodes (run isEnv st ops).nodes := by
    intro ops
    induction ops with
    | nil => intro st _ _ _; exact Keeps.refl _
    | cons op ops ih =>
      intro st h ho hr
      obtain ⟨a, b⟩ := wf_step isEnv st op h (ho op (by simp))
      exact (b (hr op (by simp))).trans (ih _ a (fun o h => ho o (by simp [h])) (fun o h => hr o (by simp [h])))
  have : run isEnv reset (ops1 ++ ops2) = run isEnv (run isEnv reset ops1 : St Mat) ops2 := by simp [run, List.foldl_append]
  rw [this]
  exact gen ops2 _ (C39_wellformed isEnv ops1 h1) h2 hr

/-- C39. The index returned by a successful create call names exactly the node asked for, and it is a new one. -/
theorem C39_returned (isEnv : ℕ → Bool) (st : St Mat) (i : Int) :
    (∀ p, (createPrimitive isEnv st p).2 = .index i → i = st.nodes.length ∧ at? (createPrimitive isEnv st p).1.nodes i = some (.prim i p)) ∧
    (∀ tr, (createGroup st tr).2 = .index i → i = st.nodes.length ∧ at? (createGroup st tr).1.nodes i = some (.group i [] false (some tr))) ∧
    ((createInstanceGroup st).2 = .index i → i = st.nodes.length ∧ at? (createInstanceGroup st).1.nodes i = some (.group i [] true none)) := by
  refine ⟨?_, ?_, ?_⟩
  · intro p h
    rcases createPrimitive_cases isEnv st p with ⟨e, _⟩ | ⟨e, _, e'⟩
    · rw [e] at h; cases h
    · rw [e] at h
      cases h
      refine ⟨rfl, ?_⟩
      rw [e', at?_nat]; simp
  · intro tr h
    simp only [createGroup, Res.index.injEq] at h
    subst h
    refine ⟨rfl, ?_⟩
    rw [at?_nat]; simp [createGroup]
  · intro h
    simp only [createInstanceGroup, Res.index.injEq] at h
    subst h
    refine ⟨rfl, ?_⟩
    rw [at?_nat]; simp [createInstanceGroup]

/-- C39. A refused or throwing call changes nothing (for every single call of the interface). -/
theorem C39_failed_unchanged (isEnv : ℕ → Bool) (st : St Mat) (op : Op Mat) (h : (step isEnv st op).2 = .throw ∨ (step isEnv st op).2 = .refused) : (step isEnv st op).1 = st := by
  cases op with
  | createPrimitive p =>
    simp only [step] at h ⊢
    rcases createPrimitive_cases isEnv st p with ⟨_, e⟩ | ⟨e, _, _⟩
    · exact e
    · rw [e] at h; rcases h with h | h <;> cases h
  | createGroup tr => rcases h with h | h <;> cases h
  | createInstanceGroup => rcases h with h | h <;> cases h
  | addChild a b =>
    simp only [step, addChild] at h ⊢
    split
    · rfl
    · next hr =>
      rw [if_neg hr] at h
      split at h
      · rcases h with h | h <;> cases h
      · rfl
  | addChildFromModel a m =>
    simp only [step, addChildFromModel] at h ⊢
    split
    · rfl
    · next hr =>
      rw [if_neg hr] at h
      cases m <;> (rcases h with h | h <;> cases h)
  | createGroupFromModel m => cases m <;> (rcases h with h | h <;> cases h)
  | build out => rcases h with h | h <;> cases h
  | reset => rcases h with h | h <;> cases h

/-- Calls whose models bring no environment light. -/
def NoEnvModel (isEnv : ℕ → Bool) : Op Mat → Prop
  | .addChildFromModel _ (some ts) => ∀ t ∈ ts, t.2.2.any isEnv = false
  | .createGroupFromModel (some ns) => ∀ i p, Node.prim i p ∈ ns → p.light.any isEnv = false
  | _ => True

/-- C39 (partial). At most one environment light: if no model brings one, the registered environment light is the only primitive with an environment light.
    Missing: environment lights inside models (next theorem). -/
theorem C39_one_env_partial (isEnv : ℕ → Bool) (ops : List (Op Mat)) (hok : ∀ op ∈ ops, OpOk op) (hne : ∀ op ∈ ops, NoEnvModel isEnv op) (i : Int) (p : Prim)
    (hp : primAt (run isEnv reset ops).nodes i = some p) (he : p.light.any isEnv = true) : (run isEnv reset ops).envLight = some i := by
  have gen : ∀ ops : List (Op Mat), ∀ st : St Mat, WF isEnv st → (∀ op ∈ ops, OpOk op) → (∀ op ∈ ops, NoEnvModel isEnv op) →
      (∀ i p, primAt st.nodes i = some p → p.light.any isEnv = true → st.envLight = some i) →
      ∀ i p, primAt (run isEnv st ops).nodes i = some p → p.light.any isEnv = true → (run isEnv st ops).envLight = some i := by
    intro ops
    induction ops with
    | nil => intro st _ _ _ h; exact h
    | cons op ops ih =>
      intro st hw ho hn hi
      refine ih _ (wf_step isEnv st op hw (ho op (by simp))).1 (fun o h => ho o (by simp [h])) (fun o h => hn o (by simp [h])) ?_
      have hop := hn op (by simp)
      have hopk := ho op (by simp)
      have grp : ∀ (n : Node Mat), (∀ k q, n ≠ .prim k q) → ∀ i p, primAt (st.nodes ++ [n]) i = some p → p.light.any isEnv = true → st.envLight = some i := by
        intro n hnp i p hp
        apply hi
        rcases primAt_snoc hp with hp | ⟨_, k, hk⟩
        · exact hp
        · exact absurd hk (hnp k p)
      cases op with
      | createPrimitive p =>
        simp only [step]
        rcases createPrimitive_cases isEnv st p with ⟨_, e⟩ | ⟨_, henv, e⟩
        · rw [e]; exact hi
        · rw [e]
          intro i q hq hqe
          simp only at hq ⊢
          have : primAt st.nodes i = some q ∨ (i = st.nodes.length ∧ q = p) := by
            rcases primAt_snoc hq with hq | ⟨h1, k, hk⟩
            · exact .inl hq
            · cases hk; exact .inr ⟨h1, rfl⟩
          rcases this with hq | ⟨rfl, rfl⟩
          · have h1 := hi i q hq hqe
            split
            · next hpe => rw [henv hpe] at h1; cases h1
            · exact h1
          · rw [if_pos hqe]
      | createGroup tr => exact grp _ (by intro k q h; cases h)
      | createInstanceGroup => exact grp _ (by intro k q h; cases h)
      | addChild a b =>
        obtain ⟨_, _, _, _, h4, h5⟩ := addChild_spec st a b hw
        intro i p hp hpe
        simp only [step] at hp ⊢
        rw [h5] at hp
        rw [h4]; exact hi i p hp hpe
      | addChildFromModel a m =>
        simp only [step, addChildFromModel]
        split
        · exact hi
        · cases m with
          | none => exact hi
          | some ts =>
            obtain ⟨_, _, h3, h4⟩ := modelPrimitives_spec a ts st hw
            intro i p hp hpe
            simp only at hp ⊢
            rw [h3]
            rcases h4 i p hp with hp | ⟨t, ht, rfl⟩
            · exact hi i p hp hpe
            · rw [hop t ht] at hpe; cases hpe
      | createGroupFromModel m =>
        cases m with
        | none => exact hi
        | some ns =>
          obtain ⟨_, _, h3, _, h5⟩ := modelNode_spec st.nodes.length ns st 0 hopk rfl hw
          intro i p hp hpe
          simp only [step, createGroupFromModel] at hp ⊢
          rw [h3]
          rcases h5 i p hp with hp | ⟨k, hk⟩
          · exact hi i p hp hpe
          · rw [hop k p hk] at hpe; cases hpe
      | build out => exact hi
      | reset =>
        intro i p hp
        simp only [step, reset, primAt, at?] at hp
        split at hp
        · next k q hq =>
          split at hq
          · cases hq
          · cases hm : i.toNat with
            | zero => rw [hm] at hq; cases hq
            | succ m => rw [hm] at hq; simp at hq
        · cases hp
  refine gen ops reset (wf_init isEnv) hok hne ?_ i p hp he
  intro i p hp
  simp only [reset, primAt, at?] at hp
  split at hp
  · next k q hq =>
    split at hq
    · cases hq
    · cases hm : i.toNat with
      | zero => rw [hm] at hq; cases hq
      | succ m => rw [hm] at hq; simp at hq
  · cases hp

/-- C39, negation. A model can bring a second environment light, which is accepted silently (here by add_child_from_model; create_group_from_model behaves alike). -/
theorem C39_negation_two_envs : ∃ (isEnv : ℕ → Bool) (ops : List (Op ℕ)), (∀ op ∈ ops, OpOk op) ∧ ∃ i j p q, i ≠ j ∧ primAt (run isEnv reset ops).nodes i = some p ∧
    primAt (run isEnv reset ops).nodes j = some q ∧ p.light.any isEnv = true ∧ q.light.any isEnv = true :=
  ⟨fun _ => true, [.createPrimitive ⟨none, none, some 0, none, none⟩, .addChildFromModel 0 (some [(none, none, some 1)])], by intro op hop; simp at hop; rcases hop with rfl | rfl <;> trivial,
    1, 2, ⟨none, none, some 0, none, none⟩, ⟨none, none, some 1, none, none⟩, by decide, rfl, rfl, rfl, rfl⟩

/-- Remark: the environment light answered by ray queries need not be a selectable light: it is registered even if its node is never attached to the root. -/
theorem C39_remark_detached_env : ∃ st : St ℕ, st = run (fun _ => true) reset [.createPrimitive ⟨none, none, some 0, none, none⟩] ∧ st.envLight = some 1 ∧ traverse st.nodes 1 = .done [(0, 1)] :=
  ⟨_, rfl, rfl, rfl⟩

example : ∃ ops : List (Op ℕ), (∀ op ∈ ops, OpOk op) ∧ (∀ op ∈ ops, NoEnvModel (fun x => x == 7) op) ∧ (run (fun x => x == 7) reset ops).nodes.length = 5 ∧ (run (fun x => x == 7) reset ops).camera = some 2 :=
  ⟨[.createGroup 3, .createPrimitive ⟨none, none, none, some 1, none⟩, .addChild 0 1, .addChild 1 2, .createPrimitive ⟨none, none, some 7, none, none⟩, .createPrimitive ⟨none, none, some 7, none, none⟩,
    .createGroupFromModel (some [.group 0 [] false none])], by
      intro op hop; simp at hop; rcases hop with rfl | rfl | rfl | rfl | rfl | rfl <;> simp [OpOk, ModelOk, Node.index], by
      intro op hop; simp at hop; rcases hop with rfl | rfl | rfl | rfl | rfl | rfl <;> simp [NoEnvModel], rfl, rfl⟩

end LM.Scene
