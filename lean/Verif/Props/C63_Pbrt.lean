import Verif.Model.Pbrt
import Verif.Props.C40_Traverse
import Mathlib.Logic.Relation
/-
  C63: a PBRT scene with object instances shows every instance at its transform.
-/
namespace LM.Pbrt
open LM.Scene
variable {Mat : Type}

/-! ### Specification -/

mutual
/-- All objects instanced below an object. -/
def Obj.deep : Obj Mat → List (Obj Mat)
  | .mk _ _ is => is.deep
/-- All objects instanced in a list of instances, at any depth. -/
def Insts.deep : Insts Mat → List (Obj Mat)
  | .nil => []
  | .cons _ o rest => o :: (o.deep ++ rest.deep)
end

/-- The instances as a list. -/
def Insts.toList : Insts Mat → List (Mat × Obj Mat)
  | .nil => []
  | .cons x o rest => (x, o) :: rest.toList

mutual
/-- Where a PBRT scene places its triangle meshes: the shapes of an object at its transform, and the instances at the transform of the object times their own. -/
def Obj.places [Monoid Mat] : Obj Mat → Mat → List (ℕ × Mat)
  | .mk _ ss is, M => ss.filterMap (·.map fun m => (m, M)) ++ is.places M
def Insts.places [Monoid Mat] : Insts Mat → Mat → List (ℕ × Mat)
  | .nil, _ => []
  | .cons x o rest, M => o.places (M * x) ++ rest.places M
end

/-- Mesh m is in the scene graph with the given transform: some path from the root ends at a primitive with this mesh, and the transforms of the groups passed multiply to M. -/
def Shows [Monoid Mat] (ns : List (Node Mat)) (m : ℕ) (M : Mat) : Prop :=
  ∃ path j ts p, Follows ns 0 path j ts ∧ primAt ns j = some p ∧ p.mesh = some m ∧ ts.prod = M

/-- Mesh m is not in the scene graph at all. -/
def Absent (ns : List (Node Mat)) (m : ℕ) : Prop :=
  ∀ path j ts p, Follows ns 0 path j ts → primAt ns j = some p → p.mesh ≠ some m

/-! ### Basic facts on the construction -/

theorem pushChild_length (ns : List (Node Mat)) (p c : ℕ) : (pushChild ns p c).length = ns.length := by
  simp [pushChild]

theorem pushChild_get (ns : List (Node Mat)) (p c i : ℕ) : (pushChild ns p c)[i]? =
    if p = i then ns[i]?.map (fun n => match n with | .group i ch b tr => Node.group i (ch ++ [(c : Int)]) b tr | n => n) else ns[i]? := by
  unfold pushChild
  rw [List.getElem?_modify]
  split
  · cases ns[i]? <;> rfl
  · cases ns[i]? <;> rfl

theorem pushChild_keeps (ns : List (Node Mat)) (p c : ℕ) : Keeps ns (pushChild ns p c) := by
  intro i n h
  rw [pushChild_get, h]
  by_cases hp : p = i
  · rw [if_pos hp]
    cases n with
    | prim a b => exact ⟨_, rfl, Same.refl _⟩
    | group a ch b tr => exact ⟨_, rfl, rfl, rfl, rfl, List.prefix_append _ _⟩
  · rw [if_neg hp]; exact ⟨n, rfl, Same.refl n⟩

theorem visitShape_keeps (p : ℕ) (ns : List (Node Mat)) (s : Option ℕ) : Keeps ns (visitShape p ns s) := by
  cases s with
  | none => exact Keeps.refl _
  | some m => exact (Keeps.append _ _).trans (pushChild_keeps _ _ _)

theorem shapes_keeps (p : ℕ) (ss : List (Option ℕ)) (ns : List (Node Mat)) : Keeps ns (ss.foldl (visitShape p) ns) := by
  induction ss generalizing ns with
  | nil => exact Keeps.refl _
  | cons s ss ih => exact (visitShape_keeps p ns s).trans (ih _)

mutual
theorem visitObj_keeps [Monoid Mat] : ∀ (o : Obj Mat) p x (st : St Mat), Keeps st.nodes (visitObj o p x st).nodes
  | .mk nm ss is, p, x, st => by
    unfold visitObj
    exact (shapes_keeps p ss st.nodes).trans (visitInsts_keeps is p x { st with nodes := ss.foldl (visitShape p) st.nodes })
theorem visitInsts_keeps [Monoid Mat] : ∀ (is : Insts Mat) p x (st : St Mat), Keeps st.nodes (visitInsts is p x st).nodes
  | .nil, p, x, st => Keeps.refl _
  | .cons y o rest, p, x, st => by
    unfold visitInsts
    dsimp only
    refine Keeps.trans ?_ (visitInsts_keeps rest p x _)
    have h1 : Keeps st.nodes (pushChild (st.nodes ++ [.group st.nodes.length [] false (some (x * y))]) p st.nodes.length) :=
      (Keeps.append _ _).trans (pushChild_keeps _ _ _)
    cases find st.visited o.name with
    | some g => exact h1.trans (pushChild_keeps _ _ _)
    | none => exact (h1.trans (Keeps.append _ _)).trans (visitObj_keeps o _ _ ⟨_, st.visited⟩)
end

/-- Group i exists with this transform, and c is a child of it. -/
def HasChild (ns : List (Node Mat)) (i : ℕ) (tr : Option Mat) (c : ℕ) : Prop := ∃ idx ch b, ns[i]? = some (.group idx ch b tr) ∧ (c : Int) ∈ ch

/-- A group with this transform. -/
def IsGroup (ns : List (Node Mat)) (i : ℕ) (tr : Option Mat) : Prop := ∃ idx ch b, ns[i]? = some (.group idx ch b tr)

def IsMesh (ns : List (Node Mat)) (i m : ℕ) : Prop := ∃ idx p, ns[i]? = some (.prim idx p) ∧ p.mesh = some m

theorem HasChild.keeps {ns ns' : List (Node Mat)} {i c : ℕ} {tr : Option Mat} (h : HasChild ns i tr c) (k : Keeps ns ns') : HasChild ns' i tr c := by
  obtain ⟨idx, ch, b, h1, h2⟩ := h
  obtain ⟨n', e, s⟩ := k _ _ h1
  cases n' with
  | prim _ _ => exact s.elim
  | group a ch' b' tr' =>
    obtain ⟨rfl, rfl, rfl, hp⟩ := s
    exact ⟨_, _, _, e, hp.subset h2⟩

theorem IsGroup.keeps {ns ns' : List (Node Mat)} {i : ℕ} {tr : Option Mat} (h : IsGroup ns i tr) (k : Keeps ns ns') : IsGroup ns' i tr := by
  obtain ⟨idx, ch, b, h1⟩ := h
  obtain ⟨n', e, s⟩ := k _ _ h1
  cases n' with
  | prim _ _ => exact s.elim
  | group a ch' b' tr' =>
    obtain ⟨rfl, rfl, rfl, hp⟩ := s
    exact ⟨_, _, _, e⟩

theorem IsMesh.keeps {ns ns' : List (Node Mat)} {i m : ℕ} (h : IsMesh ns i m) (k : Keeps ns ns') : IsMesh ns' i m := by
  obtain ⟨idx, p, h1, h2⟩ := h
  obtain ⟨n', e, s⟩ := k _ _ h1
  cases n' with
  | prim _ _ => obtain ⟨rfl, rfl⟩ := s; exact ⟨_, _, e, h2⟩
  | group a ch' b' tr' => exact s.elim

theorem pushChild_has {ns : List (Node Mat)} {p c : ℕ} {tr : Option Mat} (h : IsGroup ns p tr) : HasChild (pushChild ns p c) p tr c := by
  obtain ⟨idx, ch, b, h⟩ := h
  refine ⟨idx, ch ++ [(c : Int)], b, ?_, by simp⟩
  rw [pushChild_get, if_pos rfl, h]; rfl

theorem last_get (ns : List (Node Mat)) (n : Node Mat) : (ns ++ [n])[ns.length]? = some n := by simp

/-- The shapes of an object become children of its parent node. -/
theorem shapes_placed (p : ℕ) (tr : Option Mat) (ss : List (Option ℕ)) (ns : List (Node Mat)) (hp : IsGroup ns p tr) :
    ∀ m, some m ∈ ss → ∃ c, HasChild (ss.foldl (visitShape p) ns) p tr c ∧ IsMesh (ss.foldl (visitShape p) ns) c m := by
  induction ss generalizing ns with
  | nil => intro m h; cases h
  | cons s ss ih =>
    intro m hm
    rcases List.mem_cons.mp hm with h | h
    · subst h
      have hk := shapes_keeps p ss (visitShape p ns (some m))
      refine ⟨ns.length, HasChild.keeps ?_ hk, IsMesh.keeps ?_ hk⟩
      · exact pushChild_has (hp.keeps (Keeps.append _ _))
      · exact IsMesh.keeps (ns := ns ++ [.prim ns.length ⟨some m, some 0, none, none, none⟩]) ⟨_, _, last_get _ _, rfl⟩ (pushChild_keeps _ _ _)
    · exact ih _ (hp.keeps (visitShape_keeps _ _ _)) m h

/-- Every visited name leads to a group without a transform of its own, below which are the shapes of the object. -/
def Ready [Monoid Mat] (S : List Char → List (Option ℕ)) (st : St Mat) : Prop :=
  ∀ e ∈ st.visited, ∀ m, some m ∈ S e.1 → ∃ c, HasChild st.nodes e.2 (some 1) c ∧ IsMesh st.nodes c m

theorem Ready.keeps [Monoid Mat] {S : List Char → List (Option ℕ)} {st : St Mat} (h : Ready S st) {ns : List (Node Mat)} (k : Keeps st.nodes ns) : Ready S ⟨ns, st.visited⟩ := by
  intro e he m hm
  obtain ⟨c, h1, h2⟩ := h e he m hm
  exact ⟨c, h1.keeps k, h2.keeps k⟩

theorem visitObj_placed [Monoid Mat] (o : Obj Mat) (p : ℕ) (tr : Option Mat) (x : Mat) (st : St Mat) (hp : IsGroup st.nodes p tr) :
    ∀ m, some m ∈ o.shapes → ∃ c, HasChild (visitObj o p x st).nodes p tr c ∧ IsMesh (visitObj o p x st).nodes c m := by
  cases o with
  | mk nm ss is =>
    intro m hm
    obtain ⟨c, h1, h2⟩ := shapes_placed p tr ss st.nodes hp m hm
    unfold visitObj
    have hk := visitInsts_keeps is p x { st with nodes := ss.foldl (visitShape p) st.nodes }
    exact ⟨c, h1.keeps hk, h2.keeps hk⟩

mutual
theorem visitObj_ready [Monoid Mat] (S : List Char → List (Option ℕ)) : ∀ (o : Obj Mat) p x (st : St Mat), (∀ o' ∈ o.deep, o'.shapes = S o'.name) → Ready S st → Ready S (visitObj o p x st)
  | .mk nm ss is, p, x, st, hS, h => by
    unfold visitObj
    refine visitInsts_ready S is p x _ (fun o' ho' => hS o' (by rw [Obj.deep]; exact ho')) ?_
    exact h.keeps (shapes_keeps p ss st.nodes)
theorem visitInsts_ready [Monoid Mat] (S : List Char → List (Option ℕ)) : ∀ (is : Insts Mat) p x (st : St Mat), (∀ o' ∈ is.deep, o'.shapes = S o'.name) → Ready S st → Ready S (visitInsts is p x st)
  | .nil, p, x, st, _, h => h
  | .cons y o rest, p, x, st, hS, h => by
    unfold visitInsts
    dsimp only
    refine visitInsts_ready S rest p x _ (fun o' ho' => hS o' (by rw [Insts.deep]; simp [ho'])) ?_
    have h1 : Keeps st.nodes (pushChild (st.nodes ++ [.group st.nodes.length [] false (some (x * y))]) p st.nodes.length) :=
      (Keeps.append _ _).trans (pushChild_keeps _ _ _)
    cases find st.visited o.name with
    | some g => exact h.keeps (h1.trans (pushChild_keeps _ _ _))
    | none =>
      dsimp only
      set ns := pushChild (st.nodes ++ [.group st.nodes.length [] false (some (x * y))]) p st.nodes.length with hns
      have hr := visitObj_ready S o ns.length (x * y) { st with nodes := ns ++ [.group ns.length [] true (some 1)] }
        (fun o' ho' => hS o' (by rw [Insts.deep]; simp [ho'])) (h.keeps (h1.trans (Keeps.append _ _)))
      intro e he m hm
      rcases List.mem_cons.mp he with rfl | he
      · refine visitObj_placed o ns.length (some 1) (x * y) _ ?_ m ?_
        · exact ⟨_, _, _, last_get _ _⟩
        · rw [hS o (by rw [Insts.deep]; simp)]; exact hm
      · exact hr e he m hm
end

/-- What happens at one instance: the state before the rest of the instances. -/
def stepInst [Monoid Mat] (y : Mat) (o : Obj Mat) (p : ℕ) (x : Mat) (st : St Mat) : St Mat :=
  visitInsts (.cons y o .nil) p x st

theorem visitInsts_cons [Monoid Mat] (y : Mat) (o : Obj Mat) (rest : Insts Mat) (p : ℕ) (x : Mat) (st : St Mat) :
    visitInsts (.cons y o rest) p x st = visitInsts rest p x (stepInst y o p x st) := by
  unfold stepInst; simp only [visitInsts]

mutual
theorem visitObj_mono [Monoid Mat] : ∀ (o : Obj Mat) p x (st : St Mat) nm, nm ∈ st.visited.map (·.1) → nm ∈ (visitObj o p x st).visited.map (·.1)
  | .mk _ ss is, p, x, st, nm, h => by
    unfold visitObj
    exact visitInsts_mono is p x _ nm h
theorem visitInsts_mono [Monoid Mat] : ∀ (is : Insts Mat) p x (st : St Mat) nm, nm ∈ st.visited.map (·.1) → nm ∈ (visitInsts is p x st).visited.map (·.1)
  | .nil, p, x, st, nm, h => h
  | .cons y o rest, p, x, st, nm, h => by
    unfold visitInsts
    dsimp only
    refine visitInsts_mono rest p x _ nm ?_
    cases find st.visited o.name with
    | some g => exact h
    | none => exact List.mem_cons_of_mem _ (visitObj_mono o _ _ _ nm h)
end

mutual
theorem visitObj_sub [Monoid Mat] : ∀ (o : Obj Mat) p x (st : St Mat) nm, nm ∈ (visitObj o p x st).visited.map (·.1) → nm ∈ st.visited.map (·.1) ∨ nm ∈ o.deep.map Obj.name
  | .mk _ ss is, p, x, st, nm, h => by
    unfold visitObj at h
    rw [Obj.deep]
    exact visitInsts_sub is p x { st with nodes := ss.foldl (visitShape p) st.nodes } nm h
theorem visitInsts_sub [Monoid Mat] : ∀ (is : Insts Mat) p x (st : St Mat) nm, nm ∈ (visitInsts is p x st).visited.map (·.1) → nm ∈ st.visited.map (·.1) ∨ nm ∈ is.deep.map Obj.name
  | .nil, p, x, st, nm, h => Or.inl h
  | .cons y o rest, p, x, st, nm, h => by
    unfold visitInsts at h
    dsimp only at h
    simp only [Insts.deep, List.map_cons, List.map_append, List.mem_cons, List.mem_append]
    rcases visitInsts_sub rest p x _ nm h with h | h
    · cases hf : find st.visited o.name with
      | some g => rw [hf] at h; exact Or.inl h
      | none =>
        rw [hf] at h
        rcases List.mem_cons.mp h with h | h
        · exact Or.inr (Or.inl h)
        · rcases visitObj_sub o _ _ _ nm h with h | h
          · exact Or.inl h
          · exact Or.inr (Or.inr (Or.inl h))
    · exact Or.inr (Or.inr (Or.inr h))
end

theorem find_mem {v : List (List Char × ℕ)} {nm : List Char} {g : ℕ} (h : find v nm = some g) : (nm, g) ∈ v := by
  unfold find at h
  obtain ⟨e, he, rfl⟩ := Option.map_eq_some_iff.mp h
  have h1 := List.find?_some he
  have h2 := List.mem_of_find?_eq_some he
  simp only [decide_eq_true_eq] at h1
  rw [← h1]; exact h2

theorem find_none {v : List (List Char × ℕ)} {nm : List Char} : find v nm = none ↔ nm ∉ v.map (·.1) := by
  unfold find
  simp only [Option.map_eq_none_iff, List.find?_eq_none, decide_eq_true_eq, List.mem_map, not_exists, not_and]

theorem stepInst_visited [Monoid Mat] (y : Mat) (o : Obj Mat) (p : ℕ) (x : Mat) (st : St Mat) : o.name ∈ (stepInst y o p x st).visited.map (·.1) := by
  unfold stepInst
  simp only [visitInsts]
  cases h : find st.visited o.name with
  | some g => exact List.mem_map.mpr ⟨_, find_mem h, rfl⟩
  | none => simp

theorem visited_of_mem [Monoid Mat] : ∀ (is : Insts Mat) p x (st : St Mat) y o, (y, o) ∈ is.toList → o.name ∈ (visitInsts is p x st).visited.map (·.1)
  | .nil, p, x, st, y, o, h => by cases h
  | .cons y' o' rest, p, x, st, y, o, h => by
    rw [visitInsts_cons]
    rcases List.mem_cons.mp h with h | h
    · cases h; exact visitInsts_mono rest p x _ _ (stepInst_visited _ _ p x st)
    · exact visited_of_mem rest p x _ y o h

/-- `a` followed by `b`. -/
def Insts.append : Insts Mat → Insts Mat → Insts Mat
  | .nil, b => b
  | .cons x o r, b => .cons x o (r.append b)

theorem visitInsts_append [Monoid Mat] : ∀ (a b : Insts Mat) p x (st : St Mat), visitInsts (a.append b) p x st = visitInsts b p x (visitInsts a p x st)
  | .nil, b, p, x, st => rfl
  | .cons y o r, b, p, x, st => by
    rw [Insts.append, visitInsts_cons, visitInsts_cons, visitInsts_append r b]

theorem split_at : ∀ (is : Insts Mat) (k : ℕ) (y : Mat) (o : Obj Mat), is.toList[k]? = some (y, o) →
    ∃ a b : Insts Mat, is = a.append (.cons y o b) ∧ a.toList = is.toList.take k
  | .nil, k, y, o, h => by simp [Insts.toList] at h
  | .cons y' o' r, 0, y, o, h => by
    simp only [Insts.toList, List.getElem?_cons_zero, Option.some.injEq, Prod.mk.injEq] at h
    obtain ⟨rfl, rfl⟩ := h
    exact ⟨.nil, r, rfl, rfl⟩
  | .cons y' o' r, k + 1, y, o, h => by
    simp only [Insts.toList, List.getElem?_cons_succ] at h
    obtain ⟨a, b, h1, h2⟩ := split_at r k y o h
    exact ⟨.cons y' o' a, b, by rw [h1]; rfl, by simp [Insts.toList, h2]⟩

theorem deep_append : ∀ (a b : Insts Mat), (a.append b).deep = a.deep ++ b.deep
  | .nil, b => by simp [Insts.append, Insts.deep]
  | .cons y o r, b => by simp [Insts.append, Insts.deep, deep_append r b]

theorem follows_unique {ns : List (Node Mat)} {i : Int} {p : List ℕ} {j j' : Int} {ts ts' : List Mat} (h : Follows ns i p j ts) (h' : Follows ns i p j' ts') : j = j' ∧ ts = ts' := by
  induction h generalizing j' ts' with
  | nil i n hn => cases h'; exact ⟨rfl, rfl⟩
  | cons i idx ch b tr k c p j ts hi hk hf ih =>
    cases h' with
    | cons _ idx1 ch1 b1 tr1 _ c1 _ _ ts1 hi1 hk1 hf1 =>
      rw [hi] at hi1; cases hi1
      rw [hk] at hk1; cases hk1
      obtain ⟨rfl, rfl⟩ := ih hf1
      exact ⟨rfl, rfl⟩

theorem has_follow {ns : List (Node Mat)} {i c : ℕ} {tr : Option Mat} (h : HasChild ns i tr c) {p j ts} (hf : Follows ns (c : Int) p j ts) :
    ∃ k, Follows ns (i : Int) (k :: p) j (tr.toList ++ ts) := by
  obtain ⟨idx, ch, b, h1, h2⟩ := h
  obtain ⟨k, hk⟩ := List.mem_iff_getElem?.mp h2
  exact ⟨k, .cons _ idx ch b tr k c p j ts (by rw [at?_nat]; exact h1) hk hf⟩

theorem isMesh_primAt {ns : List (Node Mat)} {j m : ℕ} (h : IsMesh ns j m) : (∃ n, at? ns (j : Int) = some n) ∧ ∃ p, primAt ns (j : Int) = some p ∧ p.mesh = some m := by
  obtain ⟨idx, p, h1, h2⟩ := h
  refine ⟨⟨_, by rw [at?_nat]; exact h1⟩, p, ?_, h2⟩
  unfold primAt
  rw [at?_nat, h1]

theorem start_group [Monoid Mat] (camera : Option ℕ) (world : Obj Mat) : ∃ ns : List (Node Mat), IsGroup ns 0 none ∧ construct camera world = (visitObj world 0 1 ⟨ns, []⟩).nodes := by
  cases camera with
  | none => exact ⟨_, ⟨_, _, _, rfl⟩, rfl⟩
  | some c => exact ⟨_, IsGroup.keeps (ns := [.group 0 [] false none, .prim 1 ⟨none, none, none, some c, none⟩]) ⟨_, _, _, rfl⟩ (pushChild_keeps _ 0 1), rfl⟩

/-! ### Theorems -/

/-- Every triangle mesh of the world itself is in the scene, untransformed. -/
theorem C63_world [Monoid Mat] (camera : Option ℕ) (world : Obj Mat) (m : ℕ) (hm : some m ∈ world.shapes) : Shows (construct camera world) m 1 := by
  obtain ⟨ns, hg, e⟩ := start_group camera world
  rw [e]
  obtain ⟨c, h1, h2⟩ := visitObj_placed world 0 none 1 ⟨ns, []⟩ hg m hm
  obtain ⟨⟨n, hn⟩, p, h3, h4⟩ := isMesh_primAt h2
  obtain ⟨k, hk⟩ := has_follow h1 (Follows.nil _ n hn)
  exact ⟨_, _, _, p, hk, h3, h4, by simp⟩

/-- An instance of the world whose object was already instanced by an earlier instance of the world shows all its triangle meshes at the transform of the instance. Missing from the property: the first instance of each object (C63_negation_first)
and instances inside instanced objects (C63_negation_nested). -/
theorem C63_repeated_partial [Monoid Mat] (camera : Option ℕ) (world : Obj Mat) (S : List Char → List (Option ℕ)) (hS : ∀ o ∈ world.deep, o.shapes = S o.name)
    (j k : ℕ) (hjk : j < k) (y y' : Mat) (o o' : Obj Mat) (hk : world.insts.toList[k]? = some (y, o)) (hj : world.insts.toList[j]? = some (y', o')) (hn : o'.name = o.name)
    (m : ℕ) (hm : some m ∈ o.shapes) : Shows (construct camera world) m y := by
  obtain ⟨ns, hg, e⟩ := start_group camera world
  rw [e]
  cases world with
  | mk nm ss is =>
    simp only [Obj.insts] at hk hj
    obtain ⟨a, b, hab, ha⟩ := split_at is k y o hk
    have hdeep : ∀ o' ∈ is.deep, o'.shapes = S o'.name := fun o' ho' => hS o' (by rw [Obj.deep]; exact ho')
    have hj' : (y', o') ∈ a.toList := by
      rw [ha]
      refine List.mem_iff_getElem?.mpr ⟨j, ?_⟩
      rw [List.getElem?_take, if_pos hjk]; exact hj
    have hda : ∀ o' ∈ a.deep, o'.shapes = S o'.name := fun o' ho' => hdeep o' (by rw [hab, deep_append]; simp [ho'])
    have ho : o.shapes = S o.name := hdeep o (by rw [hab, deep_append, Insts.deep]; simp)
    unfold visitObj
    rw [hab, visitInsts_append]
    set st0 : St Mat := { (⟨ns, []⟩ : St Mat) with nodes := ss.foldl (visitShape 0) ns } with hst0
    have r0 : Ready S st0 := by intro e he; cases he
    have r1 := visitInsts_ready S a 0 1 st0 hda r0
    have g1 : IsGroup (visitInsts a 0 1 st0).nodes 0 none := (hg.keeps (shapes_keeps 0 ss ns)).keeps (visitInsts_keeps a 0 1 st0)
    have hv := visited_of_mem a 0 1 st0 y' o' hj'
    rw [hn] at hv
    set st1 := visitInsts a 0 1 st0 with hst1
    cases hf : find st1.visited o.name with
    | none => exact absurd hv (find_none.mp hf)
    | some g =>
      obtain ⟨c, hc1, hc2⟩ := r1 _ (find_mem hf) m (by rw [← ho]; exact hm)
      have hstep : (stepInst y o 0 1 st1).nodes = pushChild (pushChild (st1.nodes ++ [.group st1.nodes.length [] false (some (1 * y))]) 0 st1.nodes.length) st1.nodes.length g := by
        unfold stepInst; simp only [visitInsts, hf]
      have hkeep := visitInsts_keeps b 0 1 (stepInst y o 0 1 st1)
      rw [visitInsts_cons]
      have kA : Keeps st1.nodes (st1.nodes ++ [.group st1.nodes.length [] false (some (1 * y))]) := Keeps.append _ _
      have kB := pushChild_keeps (st1.nodes ++ [.group st1.nodes.length [] false (some (1 * y))]) 0 st1.nodes.length
      have kC := pushChild_keeps (pushChild (st1.nodes ++ [.group st1.nodes.length [] false (some (1 * y))]) 0 st1.nodes.length) st1.nodes.length g
      rw [hstep] at hkeep
      have e1 : HasChild _ 0 none st1.nodes.length := (pushChild_has (g1.keeps kA)).keeps (kC.trans hkeep)
      have e2 : HasChild _ st1.nodes.length (some (1 * y)) g :=
        (pushChild_has (IsGroup.keeps (ns := st1.nodes ++ [.group st1.nodes.length [] false (some (1 * y))]) ⟨_, _, _, last_get _ _⟩ kB)).keeps hkeep
      have e3 := hc1.keeps (((kA.trans kB).trans kC).trans hkeep)
      have e4 := hc2.keeps (((kA.trans kB).trans kC).trans hkeep)
      obtain ⟨⟨n, hn⟩, p, h3, h4⟩ := isMesh_primAt e4
      obtain ⟨k1, f1⟩ := has_follow e3 (Follows.nil _ n hn)
      obtain ⟨k2, f2⟩ := has_follow e2 f1
      obtain ⟨k3, f3⟩ := has_follow e1 f2
      exact ⟨_, _, _, p, f3, h3, h4, by simp⟩

/-! ### The first instance of an object is lost -/

/-- What holds while no object name repeats: children exist, no instance group is the child of a node, groups that are not instance groups have no children except the root, and the meshes below the root are in W. -/
structure Lost (W : List (Option ℕ)) (ns : List (Node Mat)) : Prop where
  bound : ∀ (i : ℕ) idx ch b tr, ns[i]? = some (.group idx ch b tr) → ∀ c ∈ ch, ∃ k : ℕ, c = k ∧ k < ns.length
  orphan : ∀ (i : ℕ) idx ch b tr, ns[i]? = some (.group idx ch b tr) → ∀ k : ℕ, (k : Int) ∈ ch → ∀ idx' ch' tr', ns[k]? ≠ some (.group idx' ch' true tr')
  childless : ∀ (i : ℕ) idx ch tr, ns[i]? = some (.group idx ch false tr) → i ≠ 0 → ch = []
  root : ∀ idx ch b tr, ns[0]? = some (.group idx ch b tr) → ∀ k : ℕ, (k : Int) ∈ ch → ∀ idx' p, ns[k]? = some (.prim idx' p) → p.mesh = none ∨ p.mesh ∈ W

theorem get_append {ns : List (Node Mat)} {n n' : Node Mat} {i : ℕ} (h : (ns ++ [n])[i]? = some n') : ns[i]? = some n' ∨ (i = ns.length ∧ n = n') := by
  rw [List.getElem?_append] at h
  split at h
  · exact Or.inl h
  · rename_i hi
    have : i - ns.length = 0 := by
      by_contra hc
      rw [List.getElem?_eq_none (by simp; omega)] at h; cases h
    rw [this] at h
    simp only [List.getElem?_cons_zero, Option.some.injEq] at h
    exact Or.inr ⟨by omega, h⟩

theorem lt_of_get {ns : List (Node Mat)} {n : Node Mat} {i : ℕ} (h : ns[i]? = some n) : i < ns.length := by
  by_contra hc; rw [List.getElem?_eq_none (by omega)] at h; cases h

/-- Appending a node that has no children. -/
theorem Lost.append {W : List (Option ℕ)} {ns : List (Node Mat)} (h : Lost W ns) (hne : 0 < ns.length) {n : Node Mat} (hn : ∀ idx ch b tr, n = .group idx ch b tr → ch = []) : Lost W (ns ++ [n]) := by
  refine ⟨?_, ?_, ?_, ?_⟩
  · intro i idx ch b tr hi c hc
    rcases get_append hi with hi | ⟨_, hi⟩
    · obtain ⟨k, h1, h2⟩ := h.bound i idx ch b tr hi c hc
      exact ⟨k, h1, by simp; omega⟩
    · rw [hn _ _ _ _ hi] at hc; cases hc
  · intro i idx ch b tr hi k hk idx' ch' tr' hk'
    rcases get_append hi with hi | ⟨_, hi⟩
    · obtain ⟨k', h1, h2⟩ := h.bound i idx ch b tr hi k hk
      have : k' = k := by omega
      subst this
      rw [List.getElem?_append_left h2] at hk'
      exact h.orphan i idx ch b tr hi k' hk _ _ _ hk'
    · rw [hn _ _ _ _ hi] at hk; cases hk
  · intro i idx ch tr hi h0
    rcases get_append hi with hi | ⟨_, hi⟩
    · exact h.childless i idx ch tr hi h0
    · exact hn _ _ _ _ hi
  · intro idx ch b tr hi k hk idx' p hp
    rw [List.getElem?_append_left hne] at hi
    obtain ⟨k', h1, h2⟩ := h.bound 0 idx ch b tr hi k hk
    have : k' = k := by omega
    subst this
    rw [List.getElem?_append_left h2] at hp
    exact h.root idx ch b tr hi k' hk _ _ hp

theorem pushChild_group {ns : List (Node Mat)} {p c i : ℕ} {idx ch b tr} (h : (pushChild ns p c)[i]? = some (.group idx ch b tr)) :
    ∃ ch0, ns[i]? = some (.group idx ch0 b tr) ∧ (ch = ch0 ∧ p ≠ i ∨ p = i ∧ ch = ch0 ++ [(c : Int)]) := by
  rw [pushChild_get] at h
  by_cases hp : p = i
  · rw [if_pos hp] at h
    cases hn : ns[i]? with
    | none => rw [hn] at h; cases h
    | some n =>
      rw [hn] at h
      cases n with
      | prim a q => cases h
      | group a ch0 b0 tr0 => cases h; exact ⟨ch0, rfl, Or.inr ⟨hp, rfl⟩⟩
  · rw [if_neg hp] at h; exact ⟨ch, h, Or.inl ⟨rfl, hp⟩⟩

theorem pushChild_prim {ns : List (Node Mat)} {p c i : ℕ} {idx q} (h : (pushChild ns p c)[i]? = some (.prim idx q)) : ns[i]? = some (.prim idx q) := by
  rw [pushChild_get] at h
  by_cases hp : p = i
  · rw [if_pos hp] at h
    cases hn : ns[i]? with
    | none => rw [hn] at h; cases h
    | some n =>
      rw [hn] at h
      cases n with
      | prim a q => exact h
      | group a ch0 b0 tr0 => cases h
  · rw [if_neg hp] at h; exact h

/-- Adding a child that is not an instance group to the root or to an instance group. -/
theorem Lost.push {W : List (Option ℕ)} {ns : List (Node Mat)} (h : Lost W ns) {p c : ℕ} (hc : c < ns.length) (hc' : ∀ idx ch tr, ns[c]? ≠ some (.group idx ch true tr))
    (hp : p = 0 ∨ ∀ idx ch tr, ns[p]? ≠ some (.group idx ch false tr)) (hW : p = 0 → ∀ idx q, ns[c]? = some (.prim idx q) → q.mesh = none ∨ q.mesh ∈ W) : Lost W (pushChild ns p c) := by
  refine ⟨?_, ?_, ?_, ?_⟩
  · intro i idx ch b tr hi d hd
    rw [pushChild_length]
    obtain ⟨ch0, h0, hch⟩ := pushChild_group hi
    rcases hch with ⟨rfl, _⟩ | ⟨_, rfl⟩
    · exact h.bound i idx _ b tr h0 d hd
    · rcases List.mem_append.mp hd with hd | hd
      · exact h.bound i idx ch0 b tr h0 d hd
      · simp only [List.mem_singleton] at hd; exact ⟨c, hd, hc⟩
  · intro i idx ch b tr hi k hk idx' ch' tr' hk'
    obtain ⟨ch0, h0, hch⟩ := pushChild_group hi
    obtain ⟨ch1, h1, _⟩ := pushChild_group hk'
    rcases hch with ⟨rfl, _⟩ | ⟨_, rfl⟩
    · exact h.orphan i idx _ b tr h0 k hk _ _ _ h1
    · rcases List.mem_append.mp hk with hk | hk
      · exact h.orphan i idx ch0 b tr h0 k hk _ _ _ h1
      · simp only [List.mem_singleton, Int.natCast_inj] at hk
        subst hk; exact hc' _ _ _ h1
  · intro i idx ch tr hi hi0
    obtain ⟨ch0, h0, hch⟩ := pushChild_group hi
    rcases hch with ⟨rfl, _⟩ | ⟨rfl, rfl⟩
    · exact h.childless i idx _ tr h0 hi0
    · rcases hp with hp | hp
      · exact absurd hp hi0
      · exact absurd h0 (hp _ _ _)
  · intro idx ch b tr hi k hk idx' q hq
    obtain ⟨ch0, h0, hch⟩ := pushChild_group hi
    have hq0 := pushChild_prim hq
    rcases hch with ⟨rfl, _⟩ | ⟨hp0, rfl⟩
    · exact h.root idx _ b tr h0 k hk _ _ hq0
    · rcases List.mem_append.mp hk with hk | hk
      · exact h.root idx ch0 b tr h0 k hk _ _ hq0
      · simp only [List.mem_singleton, Int.natCast_inj] at hk
        subst hk; exact hW hp0 _ _ hq0

/-- The node an object is visited under: the root, or an instance group. -/
def Parent (ns : List (Node Mat)) (p : ℕ) : Prop := p = 0 ∨ ∃ idx ch tr, ns[p]? = some (.group idx ch true tr)

theorem Parent.keeps {ns ns' : List (Node Mat)} {p : ℕ} (h : Parent ns p) (k : Keeps ns ns') : Parent ns' p := by
  rcases h with h | ⟨idx, ch, tr, h⟩
  · exact Or.inl h
  · obtain ⟨n', e, s⟩ := k _ _ h
    cases n' with
    | prim _ _ => exact s.elim
    | group a ch' b' tr' => obtain ⟨rfl, rfl, rfl, hp⟩ := s; exact Or.inr ⟨_, _, _, e⟩

theorem Parent.not_plain {ns : List (Node Mat)} {p : ℕ} (h : Parent ns p) : p = 0 ∨ ∀ idx ch tr, ns[p]? ≠ some (.group idx ch false tr) := by
  rcases h with h | ⟨idx, ch, tr, h⟩
  · exact Or.inl h
  · right; intro a b c; rw [h]; simp

theorem keeps_length {ns ns' : List (Node Mat)} (k : Keeps ns ns') (h : 0 < ns.length) : 0 < ns'.length := by
  obtain ⟨n', e, _⟩ := k 0 ns[0] (by simp [h])
  exact lt_of_get e

theorem shapes_lost {W : List (Option ℕ)} (p : ℕ) : ∀ (ss : List (Option ℕ)) (ns : List (Node Mat)), Lost W ns → 0 < ns.length → Parent ns p → (p = 0 → ∀ s ∈ ss, s ∈ W) → Lost W (ss.foldl (visitShape p) ns) := by
  intro ss
  induction ss with
  | nil => intro ns h _ _ _; exact h
  | cons s ss ih =>
    intro ns h hne hp hW
    have hk := visitShape_keeps p ns s
    refine ih _ ?_ (keeps_length hk hne) (hp.keeps hk) (fun e s' hs' => hW e s' (by simp [hs']))
    cases s with
    | none => exact h
    | some m =>
      have ha := h.append hne (n := .prim ns.length ⟨some m, some 0, none, none, none⟩) (by intro _ _ _ _ e; cases e)
      refine ha.push (by simp) ?_ (hp.keeps (Keeps.append _ _)).not_plain ?_
      · intro _ _ _; rw [last_get]; simp
      · intro e idx q hq
        rw [last_get] at hq
        cases hq
        right; exact hW e _ (by simp)

mutual
theorem visitObj_lost [Monoid Mat] {W : List (Option ℕ)} : ∀ (o : Obj Mat) p x (st : St Mat), Lost W st.nodes → 0 < st.nodes.length → Parent st.nodes p → (p = 0 → ∀ s ∈ o.shapes, s ∈ W) →
    (o.deep.map Obj.name).Nodup → (∀ nm ∈ o.deep.map Obj.name, nm ∉ st.visited.map (·.1)) → Lost W (visitObj o p x st).nodes
  | .mk nm ss is, p, x, st, h, hne, hp, hW, hd, hv => by
    unfold visitObj
    have hk := shapes_keeps p ss st.nodes
    rw [Obj.deep] at hd hv
    exact visitInsts_lost is p x { st with nodes := ss.foldl (visitShape p) st.nodes } (shapes_lost p ss st.nodes h hne hp hW) (keeps_length hk hne) (hp.keeps hk) hd hv
theorem visitInsts_lost [Monoid Mat] {W : List (Option ℕ)} : ∀ (is : Insts Mat) p x (st : St Mat), Lost W st.nodes → 0 < st.nodes.length → Parent st.nodes p →
    (is.deep.map Obj.name).Nodup → (∀ nm ∈ is.deep.map Obj.name, nm ∉ st.visited.map (·.1)) → Lost W (visitInsts is p x st).nodes
  | .nil, p, x, st, h, _, _, _, _ => h
  | .cons y o rest, p, x, st, h, hne, hp, hd, hv => by
    have hf : find st.visited o.name = none := find_none.mpr (hv _ (by simp [Insts.deep]))
    have hd' := hd
    simp only [Insts.deep, List.map_cons, List.map_append, List.nodup_cons, List.mem_append, not_or] at hd
    obtain ⟨⟨hd1, hd2⟩, hd3⟩ := hd
    obtain ⟨hd4, hd5, hd6⟩ := List.nodup_append.mp hd3
    unfold visitInsts
    simp only [hf]
    set nsA := st.nodes ++ [Node.group (st.nodes.length : Int) [] false (some (x * y))] with hA
    have lA : Lost W nsA := h.append hne (by intro _ _ _ _ e; cases e; rfl)
    have kA : Keeps st.nodes nsA := Keeps.append _ _
    have lenA : nsA.length = st.nodes.length + 1 := by simp [hA]
    have atA : nsA[st.nodes.length]? = some (.group (st.nodes.length : Int) [] false (some (x * y))) := last_get _ _
    have lB : Lost W (pushChild nsA p st.nodes.length) := by
      refine lA.push (by omega) ?_ (hp.keeps kA).not_plain ?_
      · intro _ _ _; rw [atA]; simp
      · intro _ idx q hq; rw [atA] at hq; cases hq
    set nsB := pushChild nsA p st.nodes.length with hB
    have kB : Keeps st.nodes nsB := kA.trans (pushChild_keeps _ _ _)
    have neB : 0 < nsB.length := keeps_length kB hne
    set nsC := nsB ++ [Node.group (nsB.length : Int) [] true (some (1 : Mat))] with hC
    have lC : Lost W nsC := lB.append neB (by intro _ _ _ _ e; cases e; rfl)
    have neC : 0 < nsC.length := by simp [hC]
    have lD := visitObj_lost o nsB.length (x * y) ⟨nsC, st.visited⟩ lC neC (Or.inr ⟨_, _, _, last_get _ _⟩) (by intro e; omega) hd4 (fun nm hnm => hv nm (by simp only [Insts.deep, List.map_cons, List.map_append, List.mem_cons, List.mem_append]; exact Or.inr (Or.inl hnm)))
    have kD := visitObj_keeps o nsB.length (x * y) ⟨nsC, st.visited⟩
    refine visitInsts_lost rest p x ⟨_, _⟩ lD (keeps_length kD neC) ((hp.keeps (kB.trans (Keeps.append _ _))).keeps kD) hd5 ?_
    intro nm hnm hc
    rcases List.mem_cons.mp hc with hc | hc
    · subst hc; exact hd2 hnm
    · rcases visitObj_sub o nsB.length (x * y) ⟨nsC, st.visited⟩ nm hc with hc | hc
      · exact hv nm (by simp only [Insts.deep, List.map_cons, List.map_append, List.mem_cons, List.mem_append]; exact Or.inr (Or.inr hnm)) hc
      · exact hd6 _ hc _ hnm rfl
end

theorem Lost.seen {W : List (Option ℕ)} {ns : List (Node Mat)} (h : Lost W ns) : ∀ path j ts p, Follows ns 0 path j ts → (∃ idx ch b tr, ns[0]? = some (.group idx ch b tr)) → primAt ns j = some p → p.mesh = none ∨ p.mesh ∈ W := by
  intro path
  induction path with
  | nil =>
    intro j ts p hf ⟨idx, ch, b, tr, h0⟩ hp
    cases hf
    have : at? ns (0 : Int) = ns[0]? := at?_nat ns 0
    simp only [primAt, this, h0] at hp
    cases hp
  | cons k path ih =>
    intro j ts p hf h00 hp
    obtain ⟨idx, ch, b, tr, h0⟩ := h00
    have e0 : at? ns (0 : Int) = ns[0]? := at?_nat ns 0
    cases hf with
    | cons _ idx1 ch1 b1 tr1 _ c _ _ ts hi hk hf =>
      rw [e0, h0] at hi
      cases hi
      have hc := List.mem_of_getElem? hk
      obtain ⟨n, rfl, hn⟩ := h.bound 0 idx ch b tr h0 c hc
      by_cases hz : n = 0
      · subst hz; exact ih j _ p hf ⟨_, _, _, _, h0⟩ hp
      · cases hf with
        | nil _ nd hnd =>
          rw [at?_nat] at hnd
          simp only [primAt, at?_nat, hnd] at hp
          cases nd with
          | group _ _ _ _ => cases hp
          | prim a q => cases hp; exact h.root idx ch b tr h0 n hc a _ hnd
        | cons _ idx2 ch2 b2 tr2 _ c2 _ _ ts2 hi2 hk2 hf2 =>
          rw [at?_nat] at hi2
          cases b2 with
          | true => exact absurd hi2 (h.orphan 0 idx ch b tr h0 n hc _ _ _)
          | false => rw [h.childless n idx2 ch2 tr2 hi2 hz] at hk2; simp at hk2

theorem start_lost [Monoid Mat] (W : List (Option ℕ)) (camera : Option ℕ) (world : Obj Mat) :
    ∃ ns : List (Node Mat), IsGroup ns 0 none ∧ Lost W ns ∧ 0 < ns.length ∧ construct camera world = (visitObj world 0 1 ⟨ns, []⟩).nodes := by
  have h1 : Lost W ([.group 0 [] false none] : List (Node Mat)) := by
    refine ⟨?_, ?_, ?_, ?_⟩
    · intro i idx ch b tr hi c hc
      have := lt_of_get hi
      simp only [List.length_singleton] at this
      have : i = 0 := by omega
      subst this; cases hi; cases hc
    · intro i idx ch b tr hi c hc
      have := lt_of_get hi
      simp only [List.length_singleton] at this
      have : i = 0 := by omega
      subst this; cases hi; cases hc
    · intro i idx ch tr hi h0
      have := lt_of_get hi
      simp only [List.length_singleton] at this
      omega
    · intro idx ch b tr hi c hc
      cases hi; cases hc
  cases camera with
  | none => exact ⟨_, ⟨_, _, _, rfl⟩, h1, by simp, rfl⟩
  | some c =>
    refine ⟨_, IsGroup.keeps (ns := [.group 0 [] false none, .prim 1 ⟨none, none, none, some c, none⟩]) ⟨_, _, _, rfl⟩ (pushChild_keeps _ 0 1), ?_, ?_, rfl⟩
    · have h2 := h1.append (by simp) (n := .prim 1 ⟨none, none, none, some c, none⟩) (by intro _ _ _ _ e; cases e)
      refine Lost.push h2 (by simp) (by intro _ _ _; simp) (Or.inl rfl) ?_
      intro _ idx q hq
      cases hq
      exact Or.inl rfl
    · simp [pushChild]

/-- The property fails: in a scene in which no object is instanced twice, no triangle mesh of any instanced object is in the scene graph (unless the same mesh is also a shape of the world itself). -/
theorem C63_negation_first [Monoid Mat] (camera : Option ℕ) (world : Obj Mat) (hd : (world.deep.map Obj.name).Nodup) (m : ℕ) (hm : some m ∉ world.shapes) : Absent (construct camera world) m := by
  obtain ⟨ns, hg, hl, hne, e⟩ := start_lost world.shapes camera world
  rw [e]
  have hl' := visitObj_lost world 0 1 ⟨ns, []⟩ hl hne (Or.inl rfl) (fun _ s hs => hs) hd (by intro _ _ h; cases h)
  obtain ⟨idx, ch, b, hg'⟩ := hg.keeps (visitObj_keeps world 0 1 ⟨ns, []⟩)
  intro path j ts p hf hp hmesh
  rcases hl'.seen path j ts p hf ⟨_, _, _, _, hg'⟩ hp with h | h
  · rw [hmesh] at h; cases h
  · rw [hmesh] at h; exact hm h

/-! A scene: the world has mesh 0; object A (mesh 1) is instanced with the transforms 2 and 3. -/
def exA : Obj ℤ := .mk ['A'] [some 1, none] .nil
def exB : Obj ℤ := .mk ['B'] [some 2] .nil
def exWorld : Obj ℤ := .mk ['w'] [some 0] (.cons 2 exA (.cons 5 exB (.cons 3 exA .nil)))
/-- Each object once. -/
def exWorld1 : Obj ℤ := .mk ['w'] [some 0] (.cons 2 exA (.cons 5 exB .nil))

example : Shows (construct (some 0) exWorld) 0 1 := C63_world (some 0) exWorld 0 (by simp [exWorld, Obj.shapes])
example : Shows (construct (some 0) exWorld) 1 3 :=
  C63_repeated_partial (some 0) exWorld (fun n => if n = ['A'] then [some 1, none] else [some 2])
    (by intro o ho; simp only [exWorld, Obj.deep, Insts.deep, exA, exB, List.nil_append, List.append_nil, List.mem_cons, List.not_mem_nil, or_false] at ho
        rcases ho with rfl | rfl | rfl <;> simp [Obj.shapes, Obj.name])
    0 2 (by omega) 3 2 exA exA rfl rfl rfl 1 (by simp [exA, Obj.shapes])
example : Absent (construct (some 0) exWorld1) 1 := C63_negation_first (some 0) exWorld1 (by decide) 1 (by simp [exWorld1, Obj.shapes])

/-! Instances inside instances: A contains B twice (7 and 11) and is itself instanced twice (2 and 3). -/
def exNested : Obj ℤ := .mk ['w'] [] (.cons 2 (.mk ['A'] [] (.cons 7 exB (.cons 11 exB .nil))) (.cons 3 (.mk ['A'] [] (.cons 7 exB (.cons 11 exB .nil))) .nil))


theorem nested_traverse : traverse (construct none exNested) 9 = .done [(0, 1), (1, 1), (7, 1), (2, 3), (3, 3), (6, 3), (4, 66), (5, 66)] := by decide +kernel

/-- The transform of a nested instance is wrong also where the instance is not lost: the transform of the first enclosing instance is applied as well. In exNested mesh 2 belongs at 14, 22, 21 and 33 and is shown at 66 only. -/
theorem C63_negation_nested : exNested.places 1 = [(2, 14), (2, 22), (2, 21), (2, 33)] ∧ ∀ M : ℤ, Shows (construct none exNested) 2 M ↔ M = 66 := by
  refine ⟨by decide +kernel, fun M => ?_⟩
  obtain ⟨ps, _, h1, h2⟩ := C40_every_path_once _ 9 _ nested_traverse
  constructor
  · rintro ⟨path, j, ts, p, hf, hp, hm, rfl⟩
    obtain ⟨k, hk⟩ := List.mem_iff_getElem?.mp ((h1 path).mpr ⟨j, ts, hf⟩)
    have hlen := h2.length_eq
    have hk' : k < ps.length := by by_contra hc; rw [List.getElem?_eq_none (by omega)] at hk; cases hk
    have := (List.forall₂_iff_get.mp h2).2 k hk' (by omega)
    obtain ⟨ts', hf', he⟩ := this
    have hpk : ps.get ⟨k, hk'⟩ = path := by
      rw [List.getElem?_eq_getElem hk'] at hk
      simpa using hk
    rw [hpk] at hf'
    obtain ⟨hj, hts⟩ := follows_unique hf hf'
    subst hts
    rw [one_mul] at he
    rw [← he]
    have hv : ∀ v ∈ [((0 : Int), (1 : ℤ)), (1, 1), (7, 1), (2, 3), (3, 3), (6, 3), (4, 66), (5, 66)], (primAt (construct none exNested) v.1).any (fun p => p.mesh = some 2) = true → v.2 = 66 := by decide +kernel
    refine hv _ (List.get_mem _ _) ?_
    rw [← hj, hp]
    simp [hm]
  · rintro rfl
    have h5 := (List.forall₂_iff_get.mp h2).2 7 (by rw [h2.length_eq]; simp) (by simp)
    obtain ⟨ts, hf, he⟩ := h5
    refine ⟨_, _, ts, ⟨some 2, some 0, none, none, none⟩, hf, by decide +kernel, rfl, ?_⟩
    rw [one_mul] at he
    exact he.symm

end LM.Pbrt
