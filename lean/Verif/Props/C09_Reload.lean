import Verif.Spec.Reload
import Verif.Props.C03_Locator
namespace LM.Reload
open Spec LM.Locator LM.Locator.Spec

theorem nodeAt_cons (n : Node) (s : Str) (p : List Str) :
    nodeAt n (s :: p) = match n.kids.find s with | none => none | some c => nodeAt c p := rfl

theorem nodeAt_append (n : Node) (p q : List Str) :
    nodeAt n (p ++ q) = (nodeAt n p).bind (fun m => nodeAt m q) := by
  induction p generalizing n with
  | nil => rfl
  | cons s p ih =>
    rw [List.cons_append, nodeAt_cons, nodeAt_cons]
    cases n.kids.find s with
    | none => rfl
    | some c => exact ih c

theorem find_proj (ks : Kids) (s : Str) : findChild ks.proj s = (ks.find s).map Node.proj := by
  match ks with
  | .nil => simp [Kids.proj, Kids.find, findChild]
  | .cons n c r =>
    simp only [Kids.proj, Kids.find, findChild]
    split
    · rfl
    · exact find_proj r s

theorem proj_id (n : Node) : n.proj.id = n.data.id := by cases n; rfl
theorem proj_loc (n : Node) : n.proj.loc = n.data.loc := by cases n; rfl
theorem proj_strict (n : Node) : n.proj.strict = n.data.strict := by cases n; rfl
theorem proj_children (n : Node) : n.proj.children = n.kids.proj := by cases n; rfl

/-- Locator lookup of a printed good path is lookup by path. -/
theorem walk_path (n : Node) (s : List Str) (hs : ∀ x ∈ s, GoodName x) :
    match nodeAt n s with
    | some m => walk n.proj (tailLoc s) = .found m.proj
    | none => walk n.proj (tailLoc s) = .null ∨ walk n.proj (tailLoc s) = .throws := by
  induction s generalizing n with
  | nil => simp [nodeAt, tailLoc, walk_nil]
  | cons x s ih =>
    have hg := hs x (by simp)
    have hne : tailLoc (x :: s) ≠ [] := by
      unfold tailLoc
      have := hg.1
      cases x with
      | nil => exact absurd rfl this
      | cons c cs => simp
    have hsplit : splitFirst (tailLoc (x :: s)) = (x, tailLoc s) := by
      cases s with
      | nil => simpa [tailLoc] using splitFirst_noDot x hg.2
      | cons m ms => rw [tailLoc_cons]; exact splitFirst_dot x _ hg.2
    rw [walk_cons _ _ hne, hsplit, nodeAt_cons]
    simp only [underlying, proj_children, find_proj]
    cases hf : n.kids.find x with
    | none =>
      simp only [Option.map_none]
      cases n.proj.strict <;> simp
    | some c =>
      simp only [Option.map_some]
      exact ih c (fun y hy => hs y (by simp [hy]))

theorem get_path (t : Node) (s : List Str) (hs : ∀ x ∈ s, GoodName x) :
    match nodeAt t s with
    | some m => Locator.get (some t.proj) (print s) = .found m.proj
    | none => Locator.get (some t.proj) (print s) = .null ∨ Locator.get (some t.proj) (print s) = .throws := by
  rw [get_print]; exact walk_path t s hs

/-! instances -/

theorem mem_insts (n : Node) (q : List Str) (d : Data) (h : dataAt n q = some d) : (d.id, d.loc, d.kind) ∈ n.insts := by
  induction q generalizing n with
  | nil =>
    cases n with
    | mk d' ks =>
      simp only [dataAt, nodeAt, Option.map_some, Node.data, Option.some.injEq] at h
      subst h; simp [Node.insts]
  | cons s q ih =>
    cases n with
    | mk d' ks =>
      simp only [dataAt, nodeAt_cons, Node.kids] at h
      cases hf : ks.find s with
      | none => rw [hf] at h; simp at h
      | some c =>
        rw [hf] at h
        have := ih c h
        simp only [Node.insts]
        exact List.mem_cons_of_mem _ (find_sub ks s c hf _ this)
where find_sub : ∀ (ks : Kids) (s : Str) (c : Node), ks.find s = some c → ∀ x ∈ c.insts, x ∈ ks.insts
  | .nil, s, c, h, _, _ => by simp [Kids.find] at h
  | .cons n c' r, s, c, h, x, hx => by
      simp only [Kids.find] at h
      simp only [Kids.insts, List.mem_append]
      split at h
      · cases h; exact Or.inl hx
      · exact Or.inr (find_sub r s c h x hx)

theorem heap_get (h : Heap) (hu : UniqueIds h) (i : Nat) (l : Str) (k : Nat) (hm : (i, l, k) ∈ h) : h.get i = some (l, k) := by
  unfold Heap.get
  induction h with
  | nil => cases hm
  | cons e h ih =>
    unfold UniqueIds at hu
    simp only [List.map_cons, List.nodup_cons] at hu
    rcases List.mem_cons.mp hm with h1 | h1
    · subst h1; simp
    · have hne : e.1 ≠ i := by
        intro he; apply hu.1; rw [he]; exact List.mem_map.mpr ⟨_, h1, rfl⟩
      rw [List.find?_cons_of_neg (by simpa using hne)]
      exact ih hu.2 h1


/-! replacement -/

theorem find_set (new : Node) : ∀ (ks : Kids) (s s' : Str),
    (ks.set s new).find s' = if s' = s then (ks.find s).map (fun _ => new) else ks.find s'
  | .nil, s, s' => by simp [Kids.set, Kids.find]
  | .cons n c r, s, s' => by
      have ih := find_set new r s s'
      by_cases h1 : n = s
      · subst h1
        by_cases h2 : n = s'
        · subst h2; simp [Kids.set, Kids.find]
        · have : ¬ s' = n := fun e => h2 e.symm
          simp [Kids.set, Kids.find, h2, this]
      · by_cases h2 : n = s'
        · subst h2; simp [Kids.set, Kids.find, h1]
        · simp only [Kids.set, h1, if_false, Kids.find, h2]
          exact ih

theorem nodeAt_replace_under (t : Node) (p q : List Str) (new old : Node) (h : nodeAt t p = some old) :
    nodeAt (replaceAt t p new) (p ++ q) = nodeAt new q := by
  induction p generalizing t with
  | nil => simp [replaceAt]
  | cons s p ih =>
    cases t with
    | mk d ks =>
      simp only [nodeAt_cons, Node.kids] at h
      cases hf : ks.find s with
      | none => rw [hf] at h; simp at h
      | some c =>
        rw [hf] at h
        simp only [replaceAt, hf, List.cons_append, nodeAt_cons, Node.kids, find_set, if_true, Option.map_some]
        exact ih c h

theorem dataAt_replace_other (t : Node) (p q : List Str) (new : Node) (h : ¬ p <+: q) :
    dataAt (replaceAt t p new) q = dataAt t q := by
  induction p generalizing t q with
  | nil => exact absurd List.nil_prefix h
  | cons s p ih =>
    cases t with
    | mk d ks =>
      simp only [replaceAt]
      cases hf : ks.find s with
      | none => rfl
      | some c =>
        cases q with
        | nil => rfl
        | cons x q =>
          simp only [dataAt, nodeAt_cons, Node.kids, find_set]
          by_cases hx : x = s
          · subst hx
            rw [if_pos rfl, hf]
            exact ih c q (fun hp => h (List.cons_prefix_cons.mpr ⟨rfl, hp⟩))
          · rw [if_neg hx]

theorem dataAt_replace_under (t : Node) (p q : List Str) (new old : Node) (h : nodeAt t p = some old) :
    dataAt (replaceAt t p new) (p ++ q) = dataAt new q := by
  unfold dataAt; rw [nodeAt_replace_under t p q new old h]

theorem distinct_find : ∀ (ks : Kids) (s : Str) (c : Node), DistinctKids ks → ks.find s = some c → DistinctNames c
  | .nil, s, c, _, h => by simp [Kids.find] at h
  | .cons n c' r, s, c, hd, h => by
      simp only [DistinctKids] at hd
      simp only [Kids.find] at h
      split at h
      · cases h; exact hd.2.1
      · exact distinct_find r s c hd.2.2 h

theorem distinct_set (new : Node) (hn : DistinctNames new) : ∀ (ks : Kids) (s : Str), DistinctKids ks → DistinctKids (ks.set s new)
  | .nil, s, _ => by simp [Kids.set, DistinctKids]
  | .cons n c r, s, hd => by
      simp only [DistinctKids] at hd
      simp only [Kids.set]
      split
      · exact ⟨hd.1, hn, hd.2.2⟩
      · next hne =>
        refine ⟨?_, hd.2.1, distinct_set new hn r s hd.2.2⟩
        rw [find_set, if_neg hne]; exact hd.1

theorem distinct_replace (t new : Node) (p : List Str) (ht : DistinctNames t) (hn : DistinctNames new) :
    DistinctNames (replaceAt t p new) := by
  induction p generalizing t with
  | nil => simpa [replaceAt] using hn
  | cons s p ih =>
    cases t with
    | mk d ks =>
      simp only [DistinctNames] at ht
      simp only [replaceAt]
      cases hf : ks.find s with
      | none => simpa [DistinctNames] using ht
      | some c =>
        simp only [DistinctNames]
        exact distinct_set _ (ih c (distinct_find ks s c ht hf)) ks s ht

/-! the visit -/

theorem visitKids_find (root : Comp) (heap : Heap) (asset : Nat) : ∀ (ks ks' : Kids), visitKids root heap asset ks = .ok ks' →
    ∀ s, match ks.find s with
      | none => ks'.find s = none
      | some c => ∃ c', ks'.find s = some c' ∧ (if c.data.id = asset then c' = c else visitNode root heap asset c = .ok c')
  | .nil, ks', h, s => by
      simp only [visitKids, Except.ok.injEq] at h; subst h; simp [Kids.find]
  | .cons n c r, ks', h, s => by
      rw [visitKids] at h
      cases hc : (if c.data.id = asset then Except.ok c else visitNode root heap asset c) with
      | error e => rw [hc] at h; cases h
      | ok c' =>
        rw [hc] at h
        cases hr : visitKids root heap asset r with
        | error e => rw [hr] at h; cases h
        | ok r' =>
          rw [hr] at h
          simp only [Except.ok.injEq] at h
          subst h
          have ih := visitKids_find root heap asset r r' hr s
          by_cases hs : n = s
          · simp only [Kids.find, hs, if_true]
            refine ⟨c', rfl, ?_⟩
            split at hc
            · next hid => rw [if_pos hid]; cases hc; rfl
            · next hid => rw [if_neg hid]; exact hc
          · simp only [Kids.find, hs, if_false]
            exact ih

/-- Path on which the visitor arrives: nothing opaque on the way, the new asset not on the way. -/
def reach (asset : Nat) : Node → List Str → Bool
  | n, [] => !n.data.isOpaque
  | n, s :: q => !n.data.isOpaque && match n.kids.find s with
    | none => false
    | some c => decide (c.data.id ≠ asset) && reach asset c q

theorem data_mk (d : Data) (ks : Kids) : (Node.mk d ks).data = d := rfl
theorem kids_mk (d : Data) (ks : Kids) : (Node.mk d ks).kids = ks := rfl

theorem visit_at (root : Comp) (heap : Heap) (asset : Nat) (q : List Str) (n n' : Node) (h : visitNode root heap asset n = .ok n') :
    (reach asset n q = true → ∀ d, dataAt n q = some d → ∃ rs, updRefs root heap asset d.refs = .ok rs ∧ dataAt n' q = some { d with refs := rs }) ∧
    (reach asset n q = false → dataAt n' q = dataAt n q) ∧
    (dataAt n q = none → dataAt n' q = none) := by
  induction q generalizing n n' with
  | nil =>
    cases n with
    | mk d ks =>
      rw [visitNode] at h
      by_cases ho : d.isOpaque = true
      · rw [if_pos ho] at h
        cases h
        simp [reach, Node.data, ho, dataAt, nodeAt]
      · rw [if_neg ho] at h
        cases hr : updRefs root heap asset d.refs with
        | error e => rw [hr] at h; cases h
        | ok rs =>
          rw [hr] at h
          cases hk : visitKids root heap asset ks with
          | error e => rw [hk] at h; cases h
          | ok ks' =>
            rw [hk] at h
            cases h
            simp only [reach, Node.data, dataAt, nodeAt, Option.map_some]
            refine ⟨?_, ?_, by simp⟩
            · intro _ d1 hd1; cases hd1; exact ⟨rs, hr, rfl⟩
            · simp [ho]
  | cons s q ih =>
    cases n with
    | mk d ks =>
      rw [visitNode] at h
      by_cases ho : d.isOpaque = true
      · rw [if_pos ho] at h
        cases h
        simp [reach, Node.data, ho]
      · rw [if_neg ho] at h
        have ho' : d.isOpaque = false := by simpa using ho
        cases hr : updRefs root heap asset d.refs with
        | error e => rw [hr] at h; cases h
        | ok rs =>
          rw [hr] at h
          cases hk : visitKids root heap asset ks with
          | error e => rw [hk] at h; cases h
          | ok ks' =>
            rw [hk] at h
            cases h
            have hf := visitKids_find root heap asset ks ks' hk s
            simp only [reach, data_mk, ho', Bool.not_false, Bool.true_and, dataAt, nodeAt_cons, kids_mk]
            cases hc : ks.find s with
            | none =>
              rw [hc] at hf
              simp only at hf
              simp [hf]
            | some c =>
              rw [hc] at hf
              obtain ⟨c', hc', hv⟩ := hf
              simp only [hc']
              by_cases hid : c.data.id = asset
              · rw [if_pos hid] at hv
                subst hv
                simp [hid]
              · rw [if_neg hid] at hv
                have := ih c c' hv
                simpa [hid, dataAt] using this


theorem reach_iff (asset : Nat) (t : Node) (q : List Str) (d : Data) (hd : dataAt t q = some d)
    (h1 : Reported t q) (h2 : ∀ q' d', q' <+: q → q' ≠ [] → dataAt t q' = some d' → d'.id ≠ asset) : reach asset t q = true := by
  induction q generalizing t with
  | nil =>
    have := h1 [] t.data (List.prefix_refl _) rfl
    simp [reach, this]
  | cons s q ih =>
    have h0 := h1 [] t.data List.nil_prefix rfl
    simp only [dataAt, nodeAt_cons] at hd
    simp only [reach, h0, Bool.not_false, Bool.true_and]
    cases hf : t.kids.find s with
    | none => rw [hf] at hd; simp at hd
    | some c =>
      rw [hf] at hd
      have hc : ∀ x, dataAt t (s :: x) = dataAt c x := by
        intro x; simp only [dataAt, nodeAt_cons, hf]
      have hne : c.data.id ≠ asset := h2 [s] c.data (by simp) (by simp) (by rw [hc]; rfl)
      simp only [hne, ne_eq, not_false_eq_true, decide_true, Bool.true_and]
      apply ih c hd
      · intro q' d' hp hq'
        exact h1 (s :: q') d' (List.cons_prefix_cons.mpr ⟨rfl, hp⟩) (by rw [hc]; exact hq')
      · intro q' d' hp _ hq'
        exact h2 (s :: q') d' (List.cons_prefix_cons.mpr ⟨rfl, hp⟩) (by simp) (by rw [hc]; exact hq')

theorem updRefs_getElem (root : Comp) (heap : Heap) (asset : Nat) (rs rs' : List Ref) (h : updRefs root heap asset rs = .ok rs') :
    rs'.length = rs.length ∧ ∀ (i : Nat) (r : Ref), rs[i]? = some r → ∃ r', rs'[i]? = some r' ∧ updRef root heap asset r = .ok r' := by
  induction rs generalizing rs' with
  | nil => simp only [updRefs, Except.ok.injEq] at h; subst h; simp
  | cons r rs ih =>
    rw [updRefs] at h
    cases hr : updRef root heap asset r with
    | error e => rw [hr] at h; cases h
    | ok r' =>
      rw [hr] at h
      cases hrs : updRefs root heap asset rs with
      | error e => rw [hrs] at h; cases h
      | ok rs1 =>
        rw [hrs] at h
        cases h
        have := ih rs1 hrs
        refine ⟨by simp [this.1], ?_⟩
        intro i r1 hi
        cases i with
        | zero => simp at hi; subst hi; exact ⟨r', by simp, hr⟩
        | succ i => simpa using this.2 i r1 (by simpa using hi)

/-- Assumptions on a reload: hierarchy `t` before, asset `old` at path `p`, fresh subtree `new` created for that path. -/
structure Setting (t : Node) (p : List Str) (old new : Node) : Prop where
  located : WellLoc [] t
  newLocated : WellLoc p new
  unique : UniqueIds (t.insts ++ new.insts)
  asset : nodeAt t p = some old
  notRoot : p ≠ []

theorem setting_good {t : Node} {p : List Str} {old new : Node} (S : Setting t p old new) : ∀ n ∈ p, GoodName n :=
  (S.located p old.data (by simp [dataAt, S.asset])).2

/-- data after replacement -/
theorem replaced_data {t : Node} {p : List Str} {old new : Node} (S : Setting t p old new) (s : List Str) (d : Data)
    (h : dataAt (replaceAt t p new) s = some d) :
    d.loc = print s ∧ (∀ n ∈ s, GoodName n) ∧ (d.id, d.loc, d.kind) ∈ t.insts ++ new.insts := by
  by_cases hp : p <+: s
  · obtain ⟨q, rfl⟩ := hp
    rw [dataAt_replace_under t p q new old S.asset] at h
    have := S.newLocated q d h
    refine ⟨this.1, ?_, List.mem_append_right _ (mem_insts new q d h)⟩
    intro n hn
    rcases List.mem_append.mp hn with h1 | h1
    · exact setting_good S n h1
    · exact this.2 n h1
  · rw [dataAt_replace_other t p s new hp] at h
    have := S.located s d h
    exact ⟨by simpa using this.1, this.2, List.mem_append_left _ (mem_insts t s d h)⟩

theorem insts_inj {l : List (Nat × Str × Nat)} (hu : UniqueIds l) {i : Nat} {a b : Str × Nat} (h1 : (i, a) ∈ l) (h2 : (i, b) ∈ l) : a = b := by
  have e1 := heap_get l hu i a.1 a.2 h1
  have e2 := heap_get l hu i b.1 b.2 h2
  rw [e1] at e2
  exact Option.some.inj e2

theorem print_inj_good (s s' : List Str) (h1 : ∀ n ∈ s, GoodName n) (h2 : ∀ n ∈ s', GoodName n) (h : print s = print s') : s = s' := by
  have key : ∀ s s' : List Str, (∀ n ∈ s, GoodName n) → (∀ n ∈ s', GoodName n) → tailLoc s = tailLoc s' → s = s' := by
    intro s
    induction s with
    | nil =>
      intro s' _ h2 h
      cases s' with
      | nil => rfl
      | cons x s' =>
        have := (h2 x (by simp)).1
        cases x with
        | nil => exact absurd rfl this
        | cons c cs => simp [tailLoc] at h
    | cons x s ih =>
      intro s' h1 h2 h
      have hsplit : ∀ (x : Str) (s : List Str), GoodName x → splitFirst (tailLoc (x :: s)) = (x, tailLoc s) := by
        intro x s hg
        cases s with
        | nil => simpa [tailLoc] using splitFirst_noDot x hg.2
        | cons m ms => rw [tailLoc_cons]; exact splitFirst_dot x _ hg.2
      cases s' with
      | nil =>
        have := (h1 x (by simp)).1
        cases x with
        | nil => exact absurd rfl this
        | cons c cs => simp [tailLoc] at h
      | cons y s' =>
        have e1 := hsplit x s (h1 x (by simp))
        have e2 := hsplit y s' (h2 y (by simp))
        rw [h, e2] at e1
        have e := Prod.mk.inj e1
        rw [e.1, ih s' (fun n hn => h1 n (by simp [hn])) (fun n hn => h2 n (by simp [hn])) e.2.symm]
  apply key s s' h1 h2
  have hp : ∀ s : List Str, print s = '$' :: (match s with | [] => [] | _ :: _ => '.' :: tailLoc s) := by
    intro s; cases s <;> simp [print, tailLoc]
  rw [hp, hp] at h
  cases s <;> cases s' <;> simp_all

/-- The effect of the visitor on one reported reference. -/
theorem updRef_spec {t : Node} {p : List Str} {old new : Node} (S : Setting t p old new) (r r' : Ref)
    (h : updRef (replaceAt t p new).proj (t.insts ++ new.insts) new.data.id r = .ok r') (hv : r.visible = true)
    (i : Nat) (hi : r.target = some i) (s : List Str) (d : Data) (hs : dataAt t s = some d) (hd : d.id = i) :
    r'.target = expected (replaceAt t p new) s r.iface ∧ r'.iface = r.iface ∧ r'.visible = r.visible := by
  have hmem := mem_insts t s d hs
  have hne : i ≠ new.data.id := by
    intro he
    have hn := mem_insts new [] new.data rfl
    have hu := S.unique
    unfold UniqueIds at hu
    rw [List.map_append, List.nodup_append] at hu
    refine hu.2.2 _ (List.mem_map.mpr ⟨_, hmem, rfl⟩) _ (List.mem_map.mpr ⟨_, hn, rfl⟩) ?_
    simp [hd, he]
  have hheap : Heap.get (t.insts ++ new.insts) i = some (d.loc, d.kind) :=
    heap_get _ S.unique i d.loc d.kind (by rw [← hd]; exact List.mem_append_left _ hmem)
  have hloc := S.located s d hs
  simp only [List.nil_append] at hloc
  have hnonempty : d.loc.isEmpty = false := by rw [hloc.1]; simp [print]
  unfold updRef at h
  rw [hi] at h
  simp only [hv, Bool.true_eq_false, if_false, if_neg hne, hheap, hnonempty] at h
  have hg := get_path (replaceAt t p new) s hloc.2
  rw [← hloc.1] at hg
  unfold expected dataAt
  cases hn : nodeAt (replaceAt t p new) s with
  | none =>
    rw [hn] at hg
    rcases hg with hg | hg
    · rw [hg] at h; simp only [Bool.false_eq_true, if_false, Except.ok.injEq] at h; subst h; simp [hv]
    · rw [hg] at h; simp at h
  | some m =>
    rw [hn] at hg
    simp only at hg
    rw [hg] at h
    have hm := (replaced_data S s m.data (by simp [dataAt, hn])).2.2
    have := heap_get _ S.unique _ _ _ hm
    simp only [Bool.false_eq_true, if_false, proj_id, this, Except.ok.injEq] at h
    subst h; simp [hv]


/-- data without the references -/
def shape (d : Data) : Data := { d with refs := [] }

theorem visit_shape (root : Comp) (heap : Heap) (asset : Nat) (q : List Str) (n n' : Node) (h : visitNode root heap asset n = .ok n') :
    (dataAt n' q).map shape = (dataAt n q).map shape := by
  have hv := visit_at root heap asset q n n' h
  cases hr : reach asset n q with
  | false => rw [hv.2.1 hr]
  | true =>
    cases hd : dataAt n q with
    | none => rw [hv.2.2 hd]
    | some d =>
      obtain ⟨rs, _, h2⟩ := hv.1 hr d hd
      rw [h2]; rfl

theorem expected_visit (root : Comp) (heap : Heap) (asset : Nat) (n n' : Node) (h : visitNode root heap asset n = .ok n')
    (s : List Str) (iface : Nat) : expected n' s iface = expected n s iface := by
  have hs := visit_shape root heap asset s n n' h
  unfold expected
  cases h1 : dataAt n s with
  | none => rw [h1] at hs; cases h2 : dataAt n' s with
    | none => rfl
    | some d => rw [h2] at hs; simp at hs
  | some d => rw [h1] at hs; cases h2 : dataAt n' s with
    | none => rw [h2] at hs; simp at hs
    | some d' =>
      rw [h2] at hs
      simp only [Option.map_some, Option.some.injEq, shape, Data.mk.injEq] at hs
      simp [hs.1, hs.2.2.1]

theorem new_fresh {t : Node} {p : List Str} {old new : Node} (S : Setting t p old new) (q : List Str) (d : Data)
    (h : dataAt t q = some d) : d.id ≠ new.data.id := by
  intro he
  have hn := mem_insts new [] new.data rfl
  have hu := S.unique
  unfold UniqueIds at hu
  rw [List.map_append, List.nodup_append] at hu
  exact hu.2.2 _ (List.mem_map.mpr ⟨_, mem_insts t q d h, rfl⟩) _ (List.mem_map.mpr ⟨_, hn, rfl⟩) (by simp [he])

theorem prefix_not {p q q' : List Str} (h : ¬ p <+: q) (hq : q' <+: q) : ¬ p <+: q' := fun hp => h (hp.trans hq)

theorem reported_replace {t : Node} {p q : List Str} (new : Node) (hq : ¬ p <+: q) : Reported (replaceAt t p new) q ↔ Reported t q := by
  constructor
  · intro h q' d hp hd
    exact h q' d hp (by rw [dataAt_replace_other t p q' new (prefix_not hq hp)]; exact hd)
  · intro h q' d hp hd
    exact h q' d hp (by rw [dataAt_replace_other t p q' new (prefix_not hq hp)] at hd; exact hd)

/-- C09. After a successful reload of the asset at path `p`, every reported reference of every reported component outside the new asset
    that used to point to the component at path `s` points to the component that is at path `s` now
    (or is null when there is none, or it has another interface). -/
theorem C09_redirected {t t2 : Node} {p : List Str} {old new : Node} (S : Setting t p old new) (h : reload t p new = .ok t2)
    (q : List Str) (d : Data) (hq : ¬ p <+: q) (hrep : Reported t q) (hd : dataAt t q = some d)
    (i : Nat) (r : Ref) (hr : d.refs[i]? = some r) (hv : r.visible = true)
    (x : Nat) (hx : r.target = some x) (s : List Str) (ds : Data) (hs : dataAt t s = some ds) (hid : ds.id = x) :
    ∃ d2 r2, dataAt t2 q = some d2 ∧ d2.refs[i]? = some r2 ∧ r2.target = expected t2 s r.iface := by
  unfold reload at h
  have hd1 : dataAt (replaceAt t p new) q = some d := by rw [dataAt_replace_other t p q new hq]; exact hd
  have hreach : reach new.data.id (replaceAt t p new) q = true := by
    apply reach_iff _ _ _ d hd1 ((reported_replace new hq).mpr hrep)
    intro q' d' hp _ hd'
    rw [dataAt_replace_other t p q' new (prefix_not hq hp)] at hd'
    exact new_fresh S q' d' hd'
  obtain ⟨rs, hrs, h2⟩ := (visit_at _ _ _ q _ _ h).1 hreach d hd1
  obtain ⟨r2, hr2, hu⟩ := (updRefs_getElem _ _ _ _ _ hrs).2 i r hr
  refine ⟨_, r2, h2, hr2, ?_⟩
  rw [expected_visit _ _ _ _ _ h]
  exact (updRef_spec S r r2 hu hv x hx s ds hs hid).1

/-- C09. Apart from reference targets, the hierarchy after the reload is the old one with the new asset in place of the old one. -/
theorem C09_rest_unchanged {t t2 : Node} {p : List Str} {old new : Node} (S : Setting t p old new) (h : reload t p new = .ok t2) :
    (∀ q, ¬ p <+: q → (dataAt t2 q).map shape = (dataAt t q).map shape) ∧
    (∀ q, (dataAt t2 (p ++ q)).map shape = (dataAt new q).map shape) := by
  unfold reload at h
  constructor
  · intro q hq
    rw [visit_shape _ _ _ q _ _ h, dataAt_replace_other t p q new hq]
  · intro q
    rw [visit_shape _ _ _ _ _ _ h, dataAt_replace_under t p q new old S.asset]

theorem reach_new_false {t : Node} {p : List Str} {old new : Node} (S : Setting t p old new) (q : List Str) :
    reach new.data.id (replaceAt t p new) (p ++ q) = false := by
  have hp := S.notRoot
  have hn := S.asset
  clear S
  induction p generalizing t with
  | nil => exact absurd rfl hp
  | cons s p ih =>
    cases t with
    | mk d ks =>
      simp only [nodeAt_cons, kids_mk] at hn
      cases hf : ks.find s with
      | none => rw [hf] at hn; simp at hn
      | some c =>
        rw [hf] at hn
        simp only [replaceAt, hf, List.cons_append, reach, kids_mk, find_set, if_true, Option.map_some]
        by_cases hp' : p = []
        · subst hp'; simp [replaceAt]
        · simp [ih hp' hn]

/-- C09. The references of the new asset (resolved by its own construction) are left alone. -/
theorem C09_new_asset_untouched {t t2 : Node} {p : List Str} {old new : Node} (S : Setting t p old new) (h : reload t p new = .ok t2)
    (q : List Str) : dataAt t2 (p ++ q) = dataAt new q := by
  unfold reload at h
  rw [(visit_at _ _ _ _ _ _ h).2.1 (reach_new_false S q), dataAt_replace_under t p q new old S.asset]

/-! ### the visit completes -/

theorem updRefs_no_err (root : Comp) (heap : Heap) (asset : Nat) (e : Err) (rs : List Ref)
    (h : ∀ r ∈ rs, updRef root heap asset r ≠ .error e) : updRefs root heap asset rs ≠ .error e := by
  induction rs with
  | nil => simp [updRefs]
  | cons r rs ih =>
    rw [updRefs]
    have h1 := h r (by simp)
    have h2 := ih (fun r hr => h r (by simp [hr]))
    cases hr : updRef root heap asset r with
    | error e' => simpa [hr] using h1
    | ok r' =>
      cases hrs : updRefs root heap asset rs with
      | error e' => simpa [hrs] using h2
      | ok rs' => simp

mutual
theorem visitNode_no_err (root : Comp) (heap : Heap) (asset : Nat) (e : Err) : ∀ (n : Node), DistinctNames n →
    (∀ q d, reach asset n q = true → dataAt n q = some d → ∀ r ∈ d.refs, updRef root heap asset r ≠ .error e) →
    visitNode root heap asset n ≠ .error e
  | .mk d ks, hd, h => by
      rw [visitNode]
      split
      · simp
      · next ho =>
        have ho' : d.isOpaque = false := by simpa using ho
        have h1 := updRefs_no_err root heap asset e d.refs (h [] d (by simp [reach, data_mk, ho']) rfl)
        have h2 := visitKids_no_err root heap asset e ks (by simpa [DistinctNames] using hd) (by
          intro s c hc hid q d' hr hd'
          apply h (s :: q) d'
          · simp [reach, data_mk, kids_mk, ho', hc, hid, hr]
          · simpa [dataAt, nodeAt_cons, kids_mk, hc] using hd')
        cases hr : updRefs root heap asset d.refs with
        | error e' => simpa [hr] using h1
        | ok r' =>
          cases hrs : visitKids root heap asset ks with
          | error e' => simpa [hrs] using h2
          | ok rs' => simp
theorem visitKids_no_err (root : Comp) (heap : Heap) (asset : Nat) (e : Err) : ∀ (ks : Kids), DistinctKids ks →
    (∀ s c, ks.find s = some c → c.data.id ≠ asset →
      ∀ q d, reach asset c q = true → dataAt c q = some d → ∀ r ∈ d.refs, updRef root heap asset r ≠ .error e) →
    visitKids root heap asset ks ≠ .error e
  | .nil, _, _ => by simp [visitKids]
  | .cons n c r, hd, h => by
      simp only [DistinctKids] at hd
      rw [visitKids]
      have h1 : (if c.data.id = asset then Except.ok c else visitNode root heap asset c) ≠ .error e := by
        split
        · simp
        · next hid => exact visitNode_no_err root heap asset e c hd.2.1 (h n c (by simp [Kids.find]) hid)
      have h2 := visitKids_no_err root heap asset e r hd.2.2 (by
        intro s c' hc' hid
        refine h s c' ?_ hid
        have : n ≠ s := by rintro rfl; rw [hd.1] at hc'; cases hc'
        simpa [Kids.find, this] using hc')
      cases hr : (if c.data.id = asset then Except.ok c else visitNode root heap asset c) with
      | error e' => rw [hr] at h1; simpa [hr] using h1
      | ok r' =>
        cases hrs : visitKids root heap asset r with
        | error e' => simpa [hrs] using h2
        | ok rs' => simp
end

theorem reach_reported (asset : Nat) (t : Node) (q : List Str) (h : reach asset t q = true) : Reported t q := by
  induction q generalizing t with
  | nil =>
    intro q' d hp hd
    have : q' = [] := List.prefix_nil.mp hp
    subst this
    simp only [reach, Bool.not_eq_true'] at h
    simp only [dataAt, nodeAt, Option.map_some, Option.some.injEq] at hd
    rw [← hd]; exact h
  | cons s q ih =>
    simp only [reach, Bool.and_eq_true, Bool.not_eq_true'] at h
    intro q' d hp hd
    cases q' with
    | nil =>
      simp only [dataAt, nodeAt, Option.map_some, Option.some.injEq] at hd
      rw [← hd]; exact h.1
    | cons s' q' =>
      obtain ⟨rfl, hp'⟩ := List.cons_prefix_cons.mp hp
      cases hf : t.kids.find s' with
      | none => rw [hf] at h; simp at h
      | some c =>
        rw [hf] at h
        simp only [Bool.and_eq_true] at h
        exact ih c h.2.2 q' d hp' (by simpa [dataAt, nodeAt_cons, hf] using hd)

/-- References in the hierarchy with the new asset that the visitor reaches come from the hierarchy before. -/
theorem visited_ref {t : Node} {p : List Str} {old new : Node} (S : Setting t p old new) (hl : LiveRefs t)
    (q : List Str) (d : Data) (hr : reach new.data.id (replaceAt t p new) q = true) (hd : dataAt (replaceAt t p new) q = some d)
    (r : Ref) (hm : r ∈ d.refs) (hv : r.visible = true) (i : Nat) (hi : r.target = some i) :
    ∃ s d', dataAt t s = some d' ∧ d'.id = i := by
  have hq : ¬ p <+: q := by
    rintro ⟨x, rfl⟩
    rw [reach_new_false S x] at hr; cases hr
  rw [dataAt_replace_other t p q new hq] at hd
  obtain ⟨s, d', h1, h2, _⟩ := hl q d r i ((reported_replace new hq).mp (reach_reported _ _ _ hr)) hd hm hv hi
  exact ⟨s, d', h1, h2⟩

/-- C09. If no reported reference dangles before, a reload never dereferences a freed component. -/
theorem C09_no_use_after_free {t : Node} {p : List Str} {old new : Node} (S : Setting t p old new) (hl : LiveRefs t)
    (hdt : DistinctNames t) (hdn : DistinctNames new) : reload t p new ≠ .error .ub := by
  unfold reload
  apply visitNode_no_err _ _ _ _ _ (distinct_replace t new p hdt hdn)
  intro q d hr hd r hm herr
  unfold updRef at herr
  split at herr
  · cases herr
  · next hv =>
    have hv : r.visible = true := by simpa using hv
    cases hi : r.target with
    | none => rw [hi] at herr; cases herr
    | some i =>
      rw [hi] at herr
      obtain ⟨s, d', h1, h2⟩ := visited_ref S hl q d hr hd r hm hv i hi
      have hheap : Heap.get (t.insts ++ new.insts) i = some (d'.loc, d'.kind) :=
        heap_get _ S.unique i d'.loc d'.kind (by rw [← h2]; exact List.mem_append_left _ (mem_insts t s d' h1))
      simp only [hheap] at herr
      have hloc := S.located s d' h1
      simp only [List.nil_append] at hloc
      have hg := get_path (replaceAt t p new) s hloc.2
      rw [← hloc.1] at hg
      split at herr
      · cases herr
      · split at herr
        · cases herr
        · cases hn : nodeAt (replaceAt t p new) s with
          | none => rw [hn] at hg; rcases hg with hg | hg <;> rw [hg] at herr <;> simp at herr
          | some m =>
            rw [hn] at hg
            simp only at hg
            rw [hg] at herr
            have hm := (replaced_data S s m.data (by simp [dataAt, hn])).2.2
            have := heap_get _ S.unique _ _ _ hm
            simp [proj_id, this] at herr


theorem walk_no_throw (n : Node) (s : List Str) (hs : ∀ x ∈ s, GoodName x) (hn : NoStrict n) : walk n.proj (tailLoc s) ≠ .throws := by
  induction s generalizing n with
  | nil => simp [tailLoc, walk_nil]
  | cons x s ih =>
    have hg := hs x (by simp)
    have hne : tailLoc (x :: s) ≠ [] := by
      unfold tailLoc
      have := hg.1
      cases x with
      | nil => exact absurd rfl this
      | cons c cs => simp
    have hsplit : splitFirst (tailLoc (x :: s)) = (x, tailLoc s) := by
      cases s with
      | nil => simpa [tailLoc] using splitFirst_noDot x hg.2
      | cons m ms => rw [tailLoc_cons]; exact splitFirst_dot x _ hg.2
    rw [walk_cons _ _ hne, hsplit]
    simp only [underlying, proj_children, find_proj]
    cases hf : n.kids.find x with
    | none =>
      have := hn [] n.data rfl
      simp [proj_strict, this]
    | some c =>
      simp only [Option.map_some]
      apply ih c (fun y hy => hs y (by simp [hy]))
      intro q d hd
      exact hn (x :: q) d (by simpa [dataAt, nodeAt_cons, hf] using hd)

/-- C09. If moreover no component throws from name lookup, the reload completes. -/
theorem C09_completes {t : Node} {p : List Str} {old new : Node} (S : Setting t p old new) (hl : LiveRefs t)
    (hdt : DistinctNames t) (hdn : DistinctNames new) (hst : NoStrict t) (hsn : NoStrict new) : ∃ t2, reload t p new = .ok t2 := by
  have h1 := C09_no_use_after_free S hl hdt hdn
  have h2 : reload t p new ≠ .error .throws := by
    unfold reload
    apply visitNode_no_err _ _ _ _ _ (distinct_replace t new p hdt hdn)
    intro q d hr hd r hm herr
    have hns : NoStrict (replaceAt t p new) := by
      intro q d hd
      by_cases hp : p <+: q
      · obtain ⟨x, rfl⟩ := hp
        rw [dataAt_replace_under t p x new old S.asset] at hd
        exact hsn x d hd
      · rw [dataAt_replace_other t p q new hp] at hd
        exact hst q d hd
    unfold updRef at herr
    split at herr
    · cases herr
    · next hv =>
      have hv : r.visible = true := by simpa using hv
      cases hi : r.target with
      | none => rw [hi] at herr; cases herr
      | some i =>
        rw [hi] at herr
        obtain ⟨s, d', h1, h2⟩ := visited_ref S hl q d hr hd r hm hv i hi
        have hheap : Heap.get (t.insts ++ new.insts) i = some (d'.loc, d'.kind) :=
          heap_get _ S.unique i d'.loc d'.kind (by rw [← h2]; exact List.mem_append_left _ (mem_insts t s d' h1))
        simp only [hheap] at herr
        have hloc := S.located s d' h1
        simp only [List.nil_append] at hloc
        have hnt : Locator.get (some (replaceAt t p new).proj) d'.loc ≠ .throws := by
          rw [hloc.1, get_print]; exact walk_no_throw _ s hloc.2 hns
        split at herr
        · cases herr
        · split at herr
          · cases herr
          · cases hg : Locator.get (some (replaceAt t p new).proj) d'.loc with
            | throws => exact hnt hg
            | null => rw [hg] at herr; cases herr
            | found c =>
              rw [hg] at herr
              cases hh : Heap.get (t.insts ++ new.insts) c.id with
              | none => simp [hh] at herr
              | some x => simp [hh] at herr
  cases h : reload t p new with
  | ok t2 => exact ⟨t2, rfl⟩
  | error e => cases e with
    | throws => exact absurd h h2
    | ub => exact absurd h h1

/-! ### the invariant -/

theorem updRef_keeps (root : Comp) (heap : Heap) (asset : Nat) (r r' : Ref) (h : updRef root heap asset r = .ok r') :
    r'.visible = r.visible ∧ r'.iface = r.iface ∧ (r.target = none → r'.target = none) := by
  unfold updRef at h
  split at h
  · cases h; exact ⟨rfl, rfl, id⟩
  · split at h
    · cases h; exact ⟨rfl, rfl, id⟩
    · next t ht =>
      split at h
      · cases h; exact ⟨rfl, rfl, id⟩
      · split at h
        · cases h
        · split at h
          · cases h; exact ⟨rfl, rfl, id⟩
          · split at h
            · cases h
            · cases h; simp
            · split at h
              · cases h
              · cases h; simp [ht]

mutual
theorem visit_insts (root : Comp) (heap : Heap) (asset : Nat) : ∀ (n n' : Node), visitNode root heap asset n = .ok n' →
    n'.insts = n.insts ∧ (DistinctNames n → DistinctNames n')
  | .mk d ks, n', h => by
      rw [visitNode] at h
      split at h
      · cases h; exact ⟨rfl, id⟩
      · cases hr : updRefs root heap asset d.refs with
        | error e' => simp [hr] at h
        | ok r' =>
          cases hrs : visitKids root heap asset ks with
          | error e' => simp [hr, hrs] at h
          | ok ks' =>
            simp only [hr, hrs, Except.ok.injEq] at h
            subst h
            have := visitKids_insts root heap asset ks ks' hrs
            simp only [Node.insts, DistinctNames, this.1, true_and]
            exact this.2
theorem visitKids_insts (root : Comp) (heap : Heap) (asset : Nat) : ∀ (ks ks' : Kids), visitKids root heap asset ks = .ok ks' →
    ks'.insts = ks.insts ∧ (DistinctKids ks → DistinctKids ks')
  | .nil, ks', h => by simp only [visitKids, Except.ok.injEq] at h; subst h; exact ⟨rfl, id⟩
  | .cons n c r, ks', h => by
      have hfind := visitKids_find root heap asset (.cons n c r) ks' h
      rw [visitKids] at h
      cases hc : (if c.data.id = asset then Except.ok c else visitNode root heap asset c) with
      | error e' => rw [hc] at h; cases h
      | ok c' =>
        rw [hc] at h
        cases hrs : visitKids root heap asset r with
        | error e' => simp [hrs] at h
        | ok r' =>
          simp only [hrs, Except.ok.injEq] at h
          subst h
          have hr := visitKids_insts root heap asset r r' hrs
          have hcc : c'.insts = c.insts ∧ (DistinctNames c → DistinctNames c') := by
            split at hc
            · cases hc; exact ⟨rfl, id⟩
            · exact visit_insts root heap asset c c' hc
          simp only [Kids.insts, DistinctKids, hr.1, hcc.1, true_and]
          rintro ⟨h1, h2, h3⟩
          refine ⟨?_, hcc.2 h2, hr.2 h3⟩
          have := visitKids_find root heap asset r r' hrs n
          rw [h1] at this
          exact this
end

theorem count_find (a : Nat) : ∀ (ks : Kids) (s : Str) (c new : Node), ks.find s = some c →
    List.count a ((ks.set s new).insts.map Prod.fst) + List.count a (c.insts.map Prod.fst)
      = List.count a (ks.insts.map Prod.fst) + List.count a (new.insts.map Prod.fst)
  | .nil, s, c, new, h => by simp [Kids.find] at h
  | .cons n c' r, s, c, new, h => by
      simp only [Kids.find] at h
      by_cases hs : n = s
      · rw [if_pos hs] at h
        cases h
        simp only [Kids.set, hs, if_true, Kids.insts, List.map_append, List.count_append]
        omega
      · rw [if_neg hs] at h
        have := count_find a r s c new h
        simp only [Kids.set, hs, if_false, Kids.insts, List.map_append, List.count_append]
        omega

theorem count_replace (a : Nat) (t new : Node) (p : List Str) :
    List.count a ((replaceAt t p new).insts.map Prod.fst) ≤ List.count a (t.insts.map Prod.fst) + List.count a (new.insts.map Prod.fst) := by
  induction p generalizing t with
  | nil => simp [replaceAt]
  | cons s p ih =>
    cases t with
    | mk d ks =>
      simp only [replaceAt]
      cases hf : ks.find s with
      | none => simp
      | some c =>
        have h1 := ih c
        have h2 := count_find a ks s c (replaceAt c p new) hf
        simp only [Node.insts, List.map_cons, List.count_cons]
        omega

/-- State of the hierarchy that every reload preserves. -/
structure Good (t : Node) : Prop where
  located : WellLoc [] t
  distinct : DistinctNames t
  unique : UniqueIds t.insts
  live : LiveRefs t

/-- What construction of the new asset provides: its reported references were looked up in the hierarchy that already contains it
    (src/assetgroup.cpp:63-67: registration precedes construct). -/
def NewRefsLive (t : Node) (p : List Str) (new : Node) : Prop :=
  ∀ q d r i, Reported new q → dataAt new q = some d → r ∈ d.refs → r.visible = true → r.target = some i →
    ∃ s d', dataAt (replaceAt t p new) s = some d' ∧ d'.id = i ∧ castOk r.iface d'.kind = true

theorem shape_transfer {n n' : Node} {q : List Str} (h : (dataAt n' q).map shape = (dataAt n q).map shape) (d : Data) (hd : dataAt n q = some d) :
    ∃ d', dataAt n' q = some d' ∧ d'.id = d.id ∧ d'.loc = d.loc ∧ d'.kind = d.kind ∧ d'.isOpaque = d.isOpaque ∧ d'.strict = d.strict := by
  rw [hd] at h
  cases h' : dataAt n' q with
  | none => rw [h'] at h; simp at h
  | some d' =>
    rw [h'] at h
    simp only [Option.map_some, Option.some.injEq, shape, Data.mk.injEq] at h
    exact ⟨d', rfl, h.1, h.2.1, h.2.2.1, h.2.2.2.2.1, h.2.2.2.1⟩

/-- C09. Every reload preserves the invariant: in particular no reported reference ever points to a released component. -/
theorem C09_invariant {t t2 : Node} {p : List Str} {old new : Node} (S : Setting t p old new) (hg : Good t)
    (hdn : DistinctNames new) (hnl : NewRefsLive t p new) (h : reload t p new = .ok t2) : Good t2 := by
  have hvis := h
  unfold reload at hvis
  simp only at hvis
  have hsh : ∀ q, (dataAt t2 q).map shape = (dataAt (replaceAt t p new) q).map shape := fun q => visit_shape _ _ _ q _ _ hvis
  have hins := visit_insts _ _ _ _ _ hvis
  have hfwd : ∀ s d', dataAt (replaceAt t p new) s = some d' → ∃ d2, dataAt t2 s = some d2 ∧ d2.id = d'.id ∧ d2.kind = d'.kind := by
    intro s d' hd'
    obtain ⟨d2, e1, e2, _, e3, _⟩ := shape_transfer (hsh s) d' hd'
    exact ⟨d2, e1, e2, e3⟩
  refine ⟨?_, hins.2 (distinct_replace t new p hg.distinct hdn), ?_, ?_⟩
  · intro q d hd
    obtain ⟨d1, h1, _, hloc, _⟩ := shape_transfer (hsh q).symm d hd
    have := replaced_data S q d1 h1
    exact ⟨by rw [← hloc, this.1]; rfl, this.2.1⟩
  · unfold UniqueIds
    rw [hins.1, List.nodup_iff_count]
    intro a
    have h1 := count_replace a t new p
    have h2 := (List.nodup_iff_count.mp S.unique) a
    rw [List.map_append, List.count_append] at h2
    omega
  · intro q d r i hrep hd hm hv hi
    by_cases hp : p <+: q
    · obtain ⟨x, rfl⟩ := hp
      rw [C09_new_asset_untouched S h x] at hd
      have hrep' : Reported new x := by
        intro q' d' hq' hd'
        exact hrep (p ++ q') d' ((List.prefix_append_right_inj p).mpr hq') (by rw [C09_new_asset_untouched S h q']; exact hd')
      obtain ⟨s, d', h1, h2, h3⟩ := hnl x d r i hrep' hd hm hv hi
      obtain ⟨d2, e1, e2, e3⟩ := hfwd s d' h1
      exact ⟨s, d2, e1, by rw [e2, h2], by rw [e3]; exact h3⟩
    · -- outside
      have hrep1 : Reported (replaceAt t p new) q := by
        intro q' d' hq' hd'
        obtain ⟨d2, e1, _, _, _, e4, _⟩ := shape_transfer (hsh q') d' hd'
        rw [← e4]; exact hrep q' d2 hq' e1
      have hrep0 := (reported_replace new hp).mp hrep1
      obtain ⟨d1, hd1, _⟩ := shape_transfer (hsh q).symm d hd
      have hreach : reach new.data.id (replaceAt t p new) q = true := by
        apply reach_iff _ _ _ d1 hd1 hrep1
        intro q' d' hq' _ hd'
        rw [dataAt_replace_other t p q' new (prefix_not hp hq')] at hd'
        exact new_fresh S q' d' hd'
      obtain ⟨rs, hrs, h2⟩ := (visit_at _ _ _ q _ _ hvis).1 hreach d1 hd1
      rw [h2] at hd
      cases hd
      obtain ⟨k, hk⟩ := List.mem_iff_getElem?.mp hm
      simp only at hk
      have hlen := updRefs_getElem _ _ _ _ _ hrs
      have hk' : k < d1.refs.length := by rw [← hlen.1]; exact (List.getElem?_eq_some_iff.mp hk).1
      obtain ⟨r', hr', hu⟩ := hlen.2 k d1.refs[k] (List.getElem?_eq_getElem hk')
      rw [hk] at hr'
      cases hr'
      have hkeep := updRef_keeps _ _ _ _ _ hu
      cases ht : d1.refs[k].target with
      | none => rw [hkeep.2.2 ht] at hi; cases hi
      | some x =>
        have hd0 : dataAt t q = some d1 := by rw [dataAt_replace_other t p q new hp] at hd1; exact hd1
        obtain ⟨s, ds, hs1, hs2, _⟩ := hg.live q d1 d1.refs[k] x hrep0 hd0 (List.getElem_mem hk') (by rw [← hkeep.1]; exact hv) ht
        have hspec := (updRef_spec S _ _ hu (by rw [← hkeep.1]; exact hv) x ht s ds hs1 hs2).1
        rw [hi] at hspec
        unfold expected at hspec
        cases hds : dataAt (replaceAt t p new) s with
        | none => rw [hds] at hspec; cases hspec
        | some d' =>
          rw [hds] at hspec
          simp only at hspec
          split at hspec
          · next hc =>
            obtain ⟨d2, e1, e2, e3⟩ := hfwd s d' hds
            refine ⟨s, d2, e1, by rw [e2]; exact (Option.some.inj hspec).symm, ?_⟩
            rw [e3, hkeep.2.1]; exact hc
          · cases hspec

/-- C09. Consequently references into the replaced asset are gone: no reported reference of the hierarchy after the reload has the
    identity of a component of the old asset. -/
theorem C09_old_unreferenced {t t2 : Node} {p : List Str} {old new : Node} (S : Setting t p old new) (hg : Good t)
    (hdn : DistinctNames new) (hnl : NewRefsLive t p new) (h : reload t p new = .ok t2)
    (x : List Str) (dold : Data) (hold : dataAt old x = some dold)
    (q : List Str) (d : Data) (r : Ref) (hrep : Reported t2 q) (hd : dataAt t2 q = some d) (hm : r ∈ d.refs) (hv : r.visible = true) :
    r.target ≠ some dold.id := by
  intro hi
  obtain ⟨s, d', h1, h2, _⟩ := (C09_invariant S hg hdn hnl h).live q d r dold.id hrep hd hm hv hi
  have hdt : dataAt t (p ++ x) = some dold := by
    unfold dataAt at hold ⊢; rw [nodeAt_append, S.asset]; exact hold
  have hvis := h
  unfold reload at hvis
  simp only at hvis
  obtain ⟨d1, e1, e2, _⟩ := shape_transfer (visit_shape _ _ _ s _ _ hvis).symm d' h1
  have hm1 := mem_insts t _ dold hdt
  by_cases hp : p <+: s
  · obtain ⟨y, rfl⟩ := hp
    rw [dataAt_replace_under t p y new old S.asset] at e1
    have hm2 := mem_insts new y d1 e1
    have hu := S.unique
    unfold UniqueIds at hu
    rw [List.map_append, List.nodup_append] at hu
    exact hu.2.2 _ (List.mem_map.mpr ⟨_, hm1, rfl⟩) _ (List.mem_map.mpr ⟨_, hm2, rfl⟩) (by simp [e2, h2])
  · rw [dataAt_replace_other t p s new hp] at e1
    have hm2 := mem_insts t s d1 e1
    have hid : d1.id = dold.id := by rw [e2, h2]
    rw [hid] at hm2
    have := insts_inj hg.unique hm1 hm2
    have hloc : dold.loc = d1.loc := congrArg Prod.fst this
    have l1 := hg.located _ _ hdt
    have l2 := hg.located _ _ e1
    simp only [List.nil_append] at l1 l2
    rw [l1.1, l2.1] at hloc
    have := print_inj_good _ _ l1.2 l2.2 hloc
    exact hp ⟨x, this⟩


/-- Histories of successful reloads. -/
inductive History : Node → Node → Prop where
  | refl (t : Node) : History t t
  | step {t u v : Node} {p : List Str} {old new : Node} (h : History t u) (S : Setting u p old new) (hd : DistinctNames new)
      (hn : NewRefsLive u p new) (hr : reload u p new = .ok v) : History t v

/-- C09. After any number of reloads of any assets every reported reference is live. -/
theorem C09_history {t u : Node} (hg : Good t) (h : History t u) : Good u := by
  induction h with
  | refl => exact hg
  | step _ S hd hn hr ih => exact C09_invariant S ih hd hn hr

/-! ### checkers used for the examples -/
mutual
def checkWL (base : List Str) : Node → Bool
  | .mk d ks => decide (d.loc = print base) && checkWLKids base ks
def checkWLKids (base : List Str) : Kids → Bool
  | .nil => true
  | .cons n c r => decide (n ≠ []) && decide ('.' ∉ n) && checkWL (base ++ [n]) c && checkWLKids base r
end

theorem checkWLKids_find (base : List Str) : ∀ (ks : Kids) (s : Str) (c : Node), checkWLKids base ks = true → ks.find s = some c →
    GoodName s ∧ checkWL (base ++ [s]) c = true
  | .nil, s, c, _, h => by simp [Kids.find] at h
  | .cons n c' r, s, c, hw, h => by
      simp only [checkWLKids, Bool.and_eq_true, decide_eq_true_eq] at hw
      simp only [Kids.find] at h
      split at h
      · next hs => cases h; subst hs; exact ⟨⟨hw.1.1.1, hw.1.1.2⟩, hw.1.2⟩
      · exact checkWLKids_find base r s c hw.2 h

theorem checkWL_sound (base : List Str) (n : Node) (h : checkWL base n = true) : WellLoc base n := by
  intro q
  induction q generalizing base n with
  | nil =>
    intro d hd
    cases n with
    | mk d' ks =>
      simp only [checkWL, Bool.and_eq_true, decide_eq_true_eq] at h
      simp only [dataAt, nodeAt, Option.map_some, data_mk, Option.some.injEq] at hd
      subst hd; simp [h.1]
  | cons s q ih =>
    intro d hd
    cases n with
    | mk d' ks =>
      simp only [checkWL, Bool.and_eq_true, decide_eq_true_eq] at h
      simp only [dataAt, nodeAt_cons, kids_mk] at hd
      cases hf : ks.find s with
      | none => rw [hf] at hd; simp at hd
      | some c =>
        rw [hf] at hd
        have hc := checkWLKids_find base ks s c h.2 hf
        have := ih (base ++ [s]) c hc.2 d hd
        refine ⟨by simpa using this.1, ?_⟩
        intro n hn
        rcases List.mem_cons.mp hn with h1 | h1
        · rw [h1]; exact hc.1
        · exact this.2 n h1

/-! ### Example hierarchy: `$.assets.{phase, med, mat, scene}`; the scene reports a material and hides nothing,
    the medium (class medium::homogeneous, which does not override foreach_underlying) refers to the phase function. -/
def exOld : Node := .mk ⟨2, "$.assets.phase".toList, 5, false, false, []⟩ .nil
def exNew : Node := .mk ⟨12, "$.assets.phase".toList, 5, false, false, []⟩ .nil
def exMed (hidden : Bool) : Node := .mk ⟨3, "$.assets.med".toList, 6, false, hidden, [⟨some 2, 5, !hidden⟩]⟩ .nil
def exTree (hidden : Bool) : Node :=
  .mk ⟨0, "$".toList, 1, false, false, []⟩ (.cons "assets".toList
    (.mk ⟨1, "$.assets".toList, 2, false, false, []⟩
      (.cons "phase".toList exOld (.cons "med".toList (exMed hidden) .nil))) .nil)
def exPath : List Str := ["assets".toList, "phase".toList]

theorem ex_setting (b : Bool) : Setting (exTree b) exPath exOld exNew where
  located := checkWL_sound _ _ (by cases b <;> decide)
  newLocated := checkWL_sound _ _ (by decide)
  unique := by cases b <;> simp [UniqueIds, exTree, exOld, exNew, exMed, Node.insts, Kids.insts]
  asset := by simp [exTree, exPath, nodeAt, Node.kids, Kids.find]
  notRoot := by simp [exPath]

/-- Paths of the example hierarchy. -/
theorem ex_paths (b : Bool) (q : List Str) (d : Data) (h : dataAt (exTree b) q = some d) :
    (q = [] ∧ d = (exTree b).data) ∨ (q = ["assets".toList] ∧ d.refs = []) ∨ (q = exPath ∧ d = exOld.data) ∨
    (q = ["assets".toList, "med".toList] ∧ d = (exMed b).data) := by
  have leaf : ∀ (d' : Data) (q : List Str) (d : Data), dataAt (.mk d' .nil) q = some d → q = [] ∧ d = d' := by
    intro d' q d h
    cases q with
    | nil => simp [dataAt, nodeAt, data_mk] at h; exact ⟨rfl, h.symm⟩
    | cons s q => simp [dataAt, nodeAt, kids_mk, Kids.find] at h
  cases q with
  | nil => left; simp [dataAt, nodeAt] at h; exact ⟨rfl, h.symm⟩
  | cons s q =>
    right
    simp only [dataAt, nodeAt_cons, exTree, kids_mk, Kids.find] at h
    split at h
    · simp at h
    · next c hc =>
      split at hc
      · next hs =>
        subst hs; cases hc
        cases q with
        | nil => left; simp [nodeAt, data_mk] at h; subst h; exact ⟨rfl, rfl⟩
        | cons s2 q =>
          right
          simp only [nodeAt_cons, kids_mk, Kids.find] at h
          split at h
          · simp at h
          · next c2 hc2 =>
            split at hc2
            · next hs2 =>
              subst hs2; cases hc2
              left
              have := leaf _ _ _ h
              rw [this.1]; exact ⟨rfl, this.2⟩
            · split at hc2
              · next hs2 =>
                subst hs2; cases hc2
                right
                have := leaf _ _ _ h
                rw [this.1]; exact ⟨rfl, this.2⟩
              · cases hc2
      · cases hc

theorem ex_good (b : Bool) : Good (exTree b) where
  located := (ex_setting b).located
  distinct := by simp [exTree, DistinctNames, DistinctKids, exOld, exMed, Kids.find]
  unique := by cases b <;> simp [UniqueIds, exTree, exOld, exMed, Node.insts, Kids.insts]
  live := by
    intro q d r i hrep hd hm hv hi
    rcases ex_paths b q d hd with ⟨_, h⟩ | ⟨_, h⟩ | ⟨_, h⟩ | ⟨_, h⟩
    · rw [h] at hm; simp [exTree, data_mk] at hm
    · rw [h] at hm; simp at hm
    · rw [h] at hm; simp [exOld, data_mk] at hm
    · rw [h] at hm; simp [exMed, data_mk] at hm
      rw [hm] at hi; cases hi
      refine ⟨exPath, exOld.data, ?_, rfl, by rw [hm]; rfl⟩
      simp [dataAt, (ex_setting b).asset]

theorem ex_completes (b : Bool) : ∃ t2, reload (exTree b) exPath exNew = .ok t2 := by
  apply C09_completes (ex_setting b) (ex_good b).live (ex_good b).distinct
  · simp [exNew, DistinctNames, DistinctKids]
  · intro q d hd
    rcases ex_paths b q d hd with ⟨_, h⟩ | ⟨hq, _⟩ | ⟨_, h⟩ | ⟨_, h⟩
    · rw [h]; rfl
    · subst hq; simp [dataAt, nodeAt, exTree, kids_mk, Kids.find, data_mk] at hd; rw [← hd]
    · rw [h]; rfl
    · rw [h]; rfl
  · intro q d hd
    cases q with
    | nil => simp [dataAt, nodeAt] at hd; rw [← hd]; rfl
    | cons s q => simp [dataAt, nodeAt, exNew, kids_mk, Kids.find] at hd

/-- Non-vacuity of the C09 theorems: reloading the phase function redirects the (reporting) medium from instance 2 to instance 12. -/
example : ∃ t2 d2 r2, reload (exTree false) exPath exNew = .ok t2 ∧ dataAt t2 ["assets".toList, "med".toList] = some d2 ∧
    d2.refs[0]? = some r2 ∧ r2.target = some 12 := by
  obtain ⟨t2, h⟩ := ex_completes false
  have hmed : dataAt (exTree false) ["assets".toList, "med".toList] = some (exMed false).data := by
    simp [dataAt, nodeAt, exTree, kids_mk, Kids.find]
  have hrep : Reported (exTree false) ["assets".toList, "med".toList] := by
    intro q' d _ hd
    rcases ex_paths false q' d hd with ⟨_, h⟩ | ⟨hq, _⟩ | ⟨_, h⟩ | ⟨_, h⟩
    · rw [h]; rfl
    · subst hq; simp [dataAt, nodeAt, exTree, kids_mk, Kids.find, data_mk] at hd; rw [← hd]
    · rw [h]; rfl
    · rw [h]; rfl
  obtain ⟨d2, r2, h1, h2, h3⟩ := C09_redirected (ex_setting false) h ["assets".toList, "med".toList] (exMed false).data
    (by decide) hrep hmed 0 ⟨some 2, 5, true⟩ rfl rfl 2 rfl exPath exOld.data
    (by simp [dataAt, (ex_setting false).asset]) rfl
  refine ⟨t2, d2, r2, h, h1, h2, ?_⟩
  rw [h3]
  unfold expected
  have := C09_new_asset_untouched (ex_setting false) h []
  rw [List.append_nil] at this
  rw [this]; rfl

/-! ### C10 -/

/-- C10, negation (general form): a reference held by a component that does not report it still has the identity of the
    replaced asset after the reload, and that component no longer exists. Whatever the hierarchy. -/
theorem C10_negation_unreported_ref_dangles {t t2 : Node} {p : List Str} {old new : Node} (S : Setting t p old new) (hg : Good t)
    (hdn : DistinctNames new) (hnl : NewRefsLive t p new) (h : reload t p new = .ok t2)
    (q : List Str) (d : Data) (hq : ¬ p <+: q) (hd : dataAt t q = some d) (hop : d.isOpaque = true)
    (r : Ref) (hr : r ∈ d.refs) (ht : r.target = some old.data.id) :
    dataAt t2 q = some d ∧ ¬ InTree t2 old.data.id := by
  have hvis := h
  unfold reload at hvis
  simp only at hvis
  constructor
  · have hd1 : dataAt (replaceAt t p new) q = some d := by rw [dataAt_replace_other t p q new hq]; exact hd
    rw [(visit_at _ _ _ q _ _ hvis).2.1, hd1]
    cases hre : reach new.data.id (replaceAt t p new) q with
    | false => rfl
    | true =>
      have := reach_reported _ _ _ hre q d (List.prefix_refl _) hd1
      rw [hop] at this; cases this
  · rintro ⟨s, d', h1, h2⟩
    obtain ⟨d1, e1, e2, _⟩ := shape_transfer (visit_shape _ _ _ s _ _ hvis).symm d' h1
    have hold : dataAt t p = some old.data := by simp [dataAt, S.asset]
    have hm1 := mem_insts t _ _ hold
    by_cases hp : p <+: s
    · obtain ⟨y, rfl⟩ := hp
      rw [dataAt_replace_under t p y new old S.asset] at e1
      have hm2 := mem_insts new y d1 e1
      have hu := S.unique
      unfold UniqueIds at hu
      rw [List.map_append, List.nodup_append] at hu
      exact hu.2.2 _ (List.mem_map.mpr ⟨_, hm1, rfl⟩) _ (List.mem_map.mpr ⟨_, hm2, rfl⟩) (by simp [e2, h2])
    · rw [dataAt_replace_other t p s new hp] at e1
      have hm2 := mem_insts t s d1 e1
      have hid : d1.id = old.data.id := by rw [e2, h2]
      rw [hid] at hm2
      have := insts_inj hg.unique hm1 hm2
      have hloc : old.data.loc = d1.loc := congrArg Prod.fst this
      have l1 := hg.located _ _ hold
      have l2 := hg.located _ _ e1
      simp only [List.nil_append] at l1 l2
      rw [l1.1, l2.1] at hloc
      exact hp (by rw [print_inj_good _ _ l1.2 l2.2 hloc]; exact List.prefix_refl _)

/-- C10, negation (instance): with medium::homogeneous holding a phase function, reloading the phase function completes and leaves
    the medium with a pointer to the released instance 2. -/
theorem C10_negation_medium : ∃ t2 d2, reload (exTree true) exPath exNew = .ok t2 ∧
    dataAt t2 ["assets".toList, "med".toList] = some d2 ∧ (∃ r ∈ d2.refs, r.target = some 2) ∧ ¬ InTree t2 2 := by
  obtain ⟨t2, h⟩ := ex_completes true
  have hmed : dataAt (exTree true) ["assets".toList, "med".toList] = some (exMed true).data := by
    simp [dataAt, nodeAt, exTree, kids_mk, Kids.find]
  have := C10_negation_unreported_ref_dangles (ex_setting true) (ex_good true) (by simp [exNew, DistinctNames, DistinctKids])
    (by
      intro q d r i _ hd hm
      cases q with
      | nil => simp [dataAt, nodeAt] at hd; rw [← hd] at hm; simp [exNew, data_mk] at hm
      | cons s q => simp [dataAt, nodeAt, exNew, kids_mk, Kids.find] at hd)
    h ["assets".toList, "med".toList] (exMed true).data (by decide) hmed rfl ⟨some 2, 5, false⟩ (by simp [exMed, data_mk]) rfl
  exact ⟨t2, _, h, this.1, ⟨⟨some 2, 5, false⟩, by simp [exMed, data_mk], rfl⟩, this.2⟩

/-- C10 (partial). In hierarchies whose classes report all their references (class table below), no reference at all points
    into the replaced asset after a reload. Missing: the classes that do not report. -/
theorem C10_all_reported_partial {t t2 : Node} {p : List Str} {old new : Node} (S : Setting t p old new) (hg : Good t)
    (hdn : DistinctNames new) (hnl : NewRefsLive t p new) (h : reload t p new = .ok t2)
    (hall : ∀ q d, dataAt t2 q = some d → d.isOpaque = false ∧ ∀ r ∈ d.refs, r.visible = true)
    (x : List Str) (dold : Data) (hold : dataAt old x = some dold) (q : List Str) (d : Data) (hd : dataAt t2 q = some d) :
    ∀ r ∈ d.refs, r.target ≠ some dold.id := fun r hr =>
  C09_old_unreferenced S hg hdn hnl h x dold hold q d r (fun q' d' _ hd' => (hall q' d' hd').1) hd hr ((hall q d hd).2 r hr)

/-- Component classes with weak reference fields. -/
inductive Cls where
  | scene | meshObjRef | matMixtureObj | rendererBlank | rendererPt | rendererRaycast | rendererLt | rendererVolpt
  | rendererBdpt | rendererBdptopt | diffuse | proxy | mixture | mixtureMarginalized | lightArea | sppSample | sppTime
  | mediumHomogeneous | mediumHeterogeneous | volumeMulti | volraycast
deriving DecidableEq, Repr

/-- Weak reference fields of each class (member declarations; scene: include/lm/scenenode.h:62-82 and src/scene.cpp:22). -/
def held : Cls → List String
  | .scene => ["accel_", "mesh", "material", "light", "camera", "medium"]
  | .meshObjRef => ["model_"]                       -- src/model/model_wavefrontobj.cpp:262
  | .matMixtureObj => ["mask_tex_"]                 -- src/model/model_wavefrontobj.cpp:343
  | .rendererBlank => ["film_"]                     -- src/renderer/renderer_blank.cpp:17
  | .rendererPt | .rendererRaycast | .rendererLt | .rendererVolpt | .rendererBdpt | .rendererBdptopt => ["scene_", "film_"]
  | .diffuse => ["mapKd_"]                          -- src/material/material_diffuse.cpp:36
  | .proxy => ["ref_"]                              -- src/material/material_proxy.cpp:27
  | .mixture | .mixtureMarginalized => ["material"] -- src/material/material_mixture.cpp
  | .lightArea => ["mesh_"]                         -- src/light/light_area.cpp:28
  | .sppSample | .sppTime => ["film_"]              -- src/scheduler.cpp:20,60
  | .mediumHomogeneous => ["phase_"]                -- src/medium/medium_homogeneous.cpp:32
  | .mediumHeterogeneous => ["volume_density_", "volme_albedo_", "phase_"] -- src/medium/medium_heterogeneous.cpp:28-30
  | .volumeMulti => ["volumes_den_", "volumes_alb_"] -- src/volume/volume_multi.cpp:24-25
  | .volraycast => ["scene_", "film_", "volume_"]   -- plugin/volume_openvdb/renderer_volraycast.cpp:22-24

/-- Weak references passed to the visitor by each class' foreach_underlying (same files). -/
def reported : Cls → List String
  | .scene => ["accel_", "mesh", "material", "light", "camera"] -- src/scene.cpp:35-45
  | .meshObjRef => ["model_"]                       -- src/model/model_wavefrontobj.cpp:270-272
  | .matMixtureObj => ["mask_tex_"]                 -- src/model/model_wavefrontobj.cpp:350-354
  | .rendererBlank => ["film_"]                     -- src/renderer/renderer_blank.cpp:24-26
  | .rendererPt | .rendererRaycast | .rendererLt | .rendererVolpt => ["scene_", "film_"]
  | .diffuse => ["mapKd_"]                          -- src/material/material_diffuse.cpp:50-52
  | .proxy => ["ref_"]                              -- src/material/material_proxy.cpp:34-36
  | .mixture | .mixtureMarginalized => ["material"] -- src/material/material_mixture.cpp:43-47,147-153
  | .lightArea => ["mesh_"]                         -- src/light/light_area.cpp:35-37
  | .sppSample | .sppTime => ["film_"]              -- src/scheduler.cpp:27-29,67-69
  | .rendererBdpt | .rendererBdptopt | .mediumHomogeneous | .mediumHeterogeneous | .volumeMulti | .volraycast => []

/-- C10, negation (class table): these are exactly the classes that keep a reference the reload cannot redirect. -/
theorem C10_negation_classes (c : Cls) : (∃ f ∈ held c, f ∉ reported c) ↔
    c ∈ [Cls.scene, .rendererBdpt, .rendererBdptopt, .mediumHomogeneous, .mediumHeterogeneous, .volumeMulti, .volraycast] := by
  cases c <;> decide

/-! ### C11 -/

/-- C11, negation (general form): when `construct` of the replacement throws, references to the old asset are not updated although it is
    released: every one of them dangles afterwards. -/
theorem C11_negation_refs_dangle {t : Node} {p : List Str} {old new : Node} (S : Setting t p old new) (hg : Good t)
    (q : List Str) (d : Data) (hq : ¬ p <+: q) (hd : dataAt t q = some d) (r : Ref) (hr : r ∈ d.refs) (ht : r.target = some old.data.id) :
    dataAt (reloadThrows t p new) q = some d ∧ ¬ InTree (reloadThrows t p new) old.data.id := by
  refine ⟨by unfold reloadThrows; rw [dataAt_replace_other t p q new hq]; exact hd, ?_⟩
  rintro ⟨s, d1, e1, e2⟩
  unfold reloadThrows at e1
  have hold : dataAt t p = some old.data := by simp [dataAt, S.asset]
  have hm1 := mem_insts t _ _ hold
  by_cases hp : p <+: s
  · obtain ⟨y, rfl⟩ := hp
    rw [dataAt_replace_under t p y new old S.asset] at e1
    have hm2 := mem_insts new y d1 e1
    have hu := S.unique
    unfold UniqueIds at hu
    rw [List.map_append, List.nodup_append] at hu
    exact hu.2.2 _ (List.mem_map.mpr ⟨_, hm1, rfl⟩) _ (List.mem_map.mpr ⟨_, hm2, rfl⟩) (by simp [e2])
  · rw [dataAt_replace_other t p s new hp] at e1
    have hm2 := mem_insts t s d1 e1
    rw [e2] at hm2
    have hloc : old.data.loc = d1.loc := congrArg Prod.fst (insts_inj hg.unique hm1 hm2)
    have l1 := hg.located _ _ hold
    have l2 := hg.located _ _ e1
    simp only [List.nil_append] at l1 l2
    rw [l1.1, l2.1] at hloc
    exact hp (by rw [print_inj_good _ _ l1.2 l2.2 hloc]; exact List.prefix_refl _)

example : dataAt (reloadThrows (exTree false) exPath exNew) ["assets".toList, "med".toList] = some (exMed false).data ∧
    ¬ InTree (reloadThrows (exTree false) exPath exNew) 2 :=
  C11_negation_refs_dangle (ex_setting false) (ex_good false) ["assets".toList, "med".toList] (exMed false).data (by decide)
    (by simp [dataAt, nodeAt, exTree, kids_mk, Kids.find]) ⟨some 2, 5, true⟩ (by simp [exMed, data_mk]) rfl

end LM.Reload
