import Verif.Spec.AssetGroup
import Verif.Props.C01_Registry
namespace LM.AssetGroup
open Spec

/-- Simulation relation between the slot/index representation and the ordered map. -/
structure Rel (s : St) (m : Abs) : Prop where
  nodup : (m.map Prod.fst).Nodup
  slots : s.slots = m.map Prod.snd
  index : ∀ n i, s.index.find? n = some i ↔ (m.map Prod.fst)[i]? = some n

theorem rel_init (loc : Str) : Rel (St.init loc) [] :=
  ⟨List.nodup_nil, rfl, by simp [St.init]⟩

theorem rel_none {s : St} {m : Abs} (h : Rel s m) (n : Str) : s.index.find? n = none ↔ n ∉ m.map Prod.fst := by
  constructor
  · intro hn hm
    obtain ⟨i, hi⟩ := List.mem_iff_getElem?.mp hm
    rw [(h.index n i).mpr hi] at hn; cases hn
  · intro hn
    cases hc : s.index.find? n with
    | none => rfl
    | some i => exact absurd (List.mem_iff_getElem?.mpr ⟨i, (h.index n i).mp hc⟩) hn

theorem rel_lt {s : St} {m : Abs} (h : Rel s m) {n : Str} {i : Nat} (hi : s.index.find? n = some i) : i < s.slots.length := by
  rw [h.slots, List.length_map]
  have := (h.index n i).mp hi
  have := (List.getElem?_eq_some_iff.mp this).1
  simpa using this

theorem map_eq_self {α : Type} (f : α → α) (l : List α) (h : ∀ x ∈ l, f x = x) : l.map f = l := by
  rw [List.map_congr_left h]; simp

/-- In-place replacement on the map side equals `set` at the index. -/
theorem put_set (m : Abs) (hn : (m.map Prod.fst).Nodup) (n : Str) (i : Nat) (v : Option Asset)
    (hi : (m.map Prod.fst)[i]? = some n) :
    (put m n v).map Prod.fst = m.map Prod.fst ∧ (put m n v).map Prod.snd = (m.map Prod.snd).set i v := by
  have hm : n ∈ m.map Prod.fst := List.mem_iff_getElem?.mpr ⟨i, hi⟩
  unfold put
  rw [if_pos hm]
  clear hm
  constructor
  · clear hn hi
    induction m with
    | nil => rfl
    | cons e m ih =>
      simp only [List.map_cons, ih]
      congr 1
      split <;> rfl
  · induction m generalizing i with
    | nil => simp at hi
    | cons e m ih =>
      simp only [List.map_cons, List.nodup_cons] at hn
      cases i with
      | zero =>
        have he : e.1 = n := by simpa using hi
        have : m.map (fun e => if e.1 = n then (e.1, v) else e) = m := by
          apply map_eq_self
          intro x hx
          have : x.1 ≠ n := by
            intro hx'; apply hn.1; rw [he]; exact List.mem_map.mpr ⟨x, hx, hx'⟩
          simp [this]
        simp [he, this]
      | succ i =>
        have hi' : (m.map Prod.fst)[i]? = some n := by simpa using hi
        have hne : e.1 ≠ n := by
          intro he; apply hn.1; rw [he]; exact List.mem_iff_getElem?.mpr ⟨i, hi'⟩
        have := ih hn.2 i hi'
        simp [hne]; simpa using this

theorem rel_put_existing {s : St} {m : Abs} (h : Rel s m) {n : Str} {i : Nat} (hi : s.index.find? n = some i) (v : Option Asset) :
    Rel { s with slots := s.slots.set i v } (put m n v) := by
  have hp := put_set m h.nodup n i v ((h.index n i).mp hi)
  refine ⟨by rw [hp.1]; exact h.nodup, ?_, ?_⟩
  · rw [hp.2]; simp [h.slots]
  · intro n' i'; rw [hp.1]; exact h.index n' i'

theorem rel_append {s : St} {m : Abs} (h : Rel s m) {n : Str} (hn : s.index.find? n = none) (v : Option Asset) :
    Rel { s with index := s.index.insert n s.slots.length, slots := s.slots ++ [v] } (m ++ [(n, v)]) := by
  have hn' := (rel_none h n).mp hn
  have hlen : s.slots.length = (m.map Prod.fst).length := by rw [h.slots]; simp
  refine ⟨?_, by simp [h.slots], ?_⟩
  · rw [List.map_append, List.nodup_append]
    refine ⟨h.nodup, by simp, ?_⟩
    intro a ha b hb
    have : b = n := by simpa using hb
    rintro rfl; exact hn' (this ▸ ha)
  · intro n' i'
    simp only [AMap.find?_insert, List.map_append, List.map_cons, List.map_nil]
    by_cases he : n' = n
    · subst he
      rw [if_pos rfl, hlen]
      constructor
      · intro h1; cases h1; simp
      · intro h1
        by_cases hlt : i' < (m.map Prod.fst).length
        · rw [List.getElem?_append_left hlt] at h1
          exact absurd (List.mem_iff_getElem?.mpr ⟨i', h1⟩) hn'
        · have hge : (m.map Prod.fst).length ≤ i' := Nat.le_of_not_lt hlt
          rw [List.getElem?_append_right hge] at h1
          have : i' - (m.map Prod.fst).length = 0 := by
            cases hd : i' - (m.map Prod.fst).length with
            | zero => rfl
            | succ k => rw [hd] at h1; simp at h1
          congr 1; omega
    · rw [if_neg he, h.index]
      by_cases hlt : i' < (m.map Prod.fst).length
      · rw [List.getElem?_append_left hlt]
      · have hge : (m.map Prod.fst).length ≤ i' := Nat.le_of_not_lt hlt
        rw [List.getElem?_append_right hge, List.getElem?_eq_none hge]
        cases hd : i' - (m.map Prod.fst).length with
        | zero => simp; exact fun e => he e.symm
        | succ k => simp

theorem step_rel {s : St} {m : Abs} (h : Rel s m) (o : Op) :
    Rel (step s o).1 (next s.loc m o).1 ∧ (step s o).2 = (next s.loc m o).2 ∧ (step s o).1.loc = s.loc := by
  cases o with
  | loadAsset n r =>
    by_cases hv : validName n = true
    · have hput : ∀ v, (s.index.find? n = none → put m n v = m ++ [(n, v)]) := by
        intro v hn; unfold put; rw [if_neg ((rel_none h n).mp hn)]
      cases r with
      | createFails => simp [step, loadAsset, next, hv, h]
      | constructs id =>
        cases hi : s.index.find? n with
        | some i =>
          have hlt := rel_lt h hi
          simp only [step, loadAsset, next, hv, hi, if_true, Bool.true_eq_false, if_false, hlt, and_self, and_true]
          exact rel_put_existing h hi _
        | none =>
          simp only [step, loadAsset, next, hv, hi, if_true, Bool.true_eq_false, if_false, and_self, and_true]
          rw [hput _ hi]
          exact rel_append h hi _
      | throws id =>
        cases hi : s.index.find? n with
        | some i =>
          have hlt := rel_lt h hi
          simp only [step, loadAsset, next, hv, hi, if_true, Bool.true_eq_false, if_false, hlt, and_self, and_true]
          exact rel_put_existing h hi _
        | none =>
          simp only [step, loadAsset, next, hv, hi, if_true, Bool.true_eq_false, if_false, and_self, and_true]
          rw [hput _ hi]
          exact rel_append h hi _
    · have hv' : validName n = false := by simpa using hv
      simp [step, loadAsset, next, hv', h]
  | loadSerialized n r =>
    cases hi : s.index.find? n with
    | some i =>
      have hm : n ∈ m.map Prod.fst := List.mem_iff_getElem?.mpr ⟨i, (h.index n i).mp hi⟩
      simp only [step, loadSerialized, next, hi, hm, if_true, and_true]
      exact h
    | none =>
      have hm := (rel_none h n).mp hi
      cases r with
      | throws =>
        simp only [step, loadSerialized, next, hi, hm, if_false, and_true]
        exact rel_append h hi _
      | ok id =>
        simp only [step, loadSerialized, next, hi, hm, if_false, and_true]
        exact rel_append h hi _

theorem run_rel {s : St} {m : Abs} (h : Rel s m) (ops : List Op) :
    Rel (run s ops).1 (runAbs s.loc m ops).1 ∧ (run s ops).2 = (runAbs s.loc m ops).2 ∧ (run s ops).1.loc = s.loc := by
  induction ops generalizing s m with
  | nil => exact ⟨h, rfl, rfl⟩
  | cons o ops ih =>
    have hs := step_rel h o
    have := ih hs.1
    rw [hs.2.2] at this
    simp only [run, runAbs]
    exact ⟨this.1, by rw [this.2.1, hs.2.1], this.2.2⟩

theorem rel_lookup {s : St} {m : Abs} (h : Rel s m) (n : Str) : underlying s n = lookup m n := by
  unfold underlying lookup
  cases hi : s.index.find? n with
  | none =>
    have hm := (rel_none h n).mp hi
    have : m.find? (fun e => e.1 = n) = none := by
      rw [List.find?_eq_none]
      intro e he hen
      exact hm (List.mem_map.mpr ⟨e, he, by simpa using hen⟩)
    rw [this]; rfl
  | some i =>
    have hi' := (h.index n i).mp hi
    simp only [h.slots]
    have hn := h.nodup
    clear h hi
    induction m generalizing i with
    | nil => simp at hi'
    | cons e m ih =>
      simp only [List.map_cons, List.nodup_cons] at hn
      cases i with
      | zero =>
        have he : e.1 = n := by simpa using hi'
        simp [he]
      | succ i =>
        have hi2 : (m.map Prod.fst)[i]? = some n := by simpa using hi'
        have hne : e.1 ≠ n := by
          intro he; apply hn.1; rw [he]; exact List.mem_iff_getElem?.mpr ⟨i, hi2⟩
        have := ih i hi2 hn.2
        simp only [List.map_cons, List.getElem?_cons_succ]
        rw [this, List.find?_cons_of_neg (by simpa using hne)]

/-- C07. For every history of loads (with any creation, construction and file outcomes) the asset group answers exactly like
    the ordered map specification: same results of the calls, same lookup for every name, same enumeration order. -/
theorem C07_refines (loc : Str) (ops : List Op) :
    (run (St.init loc) ops).2 = (runAbs loc [] ops).2 ∧
    (∀ n, underlying (run (St.init loc) ops).1 n = lookup (runAbs loc [] ops).1 n) ∧
    enumerate (run (St.init loc) ops).1 = (runAbs loc [] ops).1.map Prod.snd := by
  have h := run_rel (rel_init loc) ops
  exact ⟨h.2.1, rel_lookup h.1, h.1.slots⟩

/-- C07. No call of any history indexes the slot vector out of range. -/
theorem C07_no_ub (loc : Str) (ops : List Op) : Out.ub ∉ (run (St.init loc) ops).2 := by
  rw [(C07_refines loc ops).1]
  generalize ([] : Abs) = m
  induction ops generalizing m with
  | nil => simp [runAbs]
  | cons o ops ih =>
    simp only [runAbs, List.mem_cons, not_or]
    refine ⟨?_, ih _⟩
    cases o with
    | loadAsset n r => cases r <;> simp [next] <;> split <;> simp
    | loadSerialized n r => cases r <;> simp [next] <;> split <;> simp

theorem lookup_put_self (m : Abs) (n : Str) (v : Option Asset) : lookup (put m n v) n = v := by
  unfold put
  split
  · next hm =>
    induction m with
    | nil => simp at hm
    | cons e m ih =>
      by_cases he : e.1 = n
      · simp [lookup, he]
      · have hm' : n ∈ m.map Prod.fst := by
          rcases List.mem_cons.mp hm with h1 | h1
          · exact absurd h1.symm he
          · exact h1
        have := ih hm'
        unfold lookup at this ⊢
        simp only [List.map_cons, he, if_false]
        rw [List.find?_cons_of_neg (by simpa using he)]
        exact this
  · next hm =>
    unfold lookup
    rw [List.find?_append]
    have : m.find? (fun e => e.1 = n) = none := by
      rw [List.find?_eq_none]
      intro e he hen
      exact hm (List.mem_map.mpr ⟨e, he, by simpa using hen⟩)
    simp [this]

theorem lookup_put_ne (m : Abs) (n n' : Str) (v : Option Asset) (hne : n' ≠ n) : lookup (put m n v) n' = lookup m n' := by
  have happ : ∀ m : Abs, lookup (m ++ [(n, v)]) n' = lookup m n' := by
    intro m
    unfold lookup
    rw [List.find?_append]
    have : ¬ n = n' := fun e => hne e.symm
    simp [this]
  unfold put
  split
  · clear happ
    induction m with
    | nil => rfl
    | cons e m ih =>
      have hmap : ∀ hm : True, lookup (m.map (fun e => if e.1 = n then (e.1, v) else e)) n' = lookup m n' := by
        intro _
        by_cases hmem : n ∈ m.map Prod.fst
        · exact ih hmem
        · have : m.map (fun e => if e.1 = n then (e.1, v) else e) = m := by
            apply map_eq_self
            intro x hx
            have : x.1 ≠ n := fun hx' => hmem (List.mem_map.mpr ⟨x, hx, hx'⟩)
            simp [this]
          rw [this]
      have hmap := hmap trivial
      unfold lookup at hmap ⊢
      by_cases he' : e.1 = n'
      · have : ¬ e.1 = n := fun h => hne (he' ▸ h)
        have h2 : ¬ n' = n := hne
        simp [he', h2]
      · rw [List.find?_cons_of_neg (by simpa using he'), List.map_cons, List.find?_cons_of_neg]
        · exact hmap
        · split <;> simpa using he'
  · exact happ m

/-- C07. After a successful load the name denotes the component that was returned, and every other name denotes what it did before. -/
theorem C07_load_then_lookup (loc : Str) (ops : List Op) (n : Str) (id : Nat) (hv : validName n = true) :
    underlying (run (St.init loc) (ops ++ [.loadAsset n (.constructs id)])).1 n = some ⟨id, loc ++ '.' :: n, true⟩ ∧
    ∀ n', n' ≠ n → underlying (run (St.init loc) (ops ++ [.loadAsset n (.constructs id)])).1 n' =
      underlying (run (St.init loc) ops).1 n' := by
  have happ : ∀ (m : Abs), (runAbs loc m (ops ++ [.loadAsset n (.constructs id)])).1 =
      put (runAbs loc m ops).1 n (some ⟨id, loc ++ '.' :: n, true⟩) := by
    induction ops with
    | nil => intro m; simp [runAbs, next, hv]
    | cons o ops ih => intro m; simp only [List.cons_append, runAbs]; exact ih _
  refine ⟨?_, ?_⟩
  · rw [(C07_refines loc _).2.1, happ, lookup_put_self]
  · intro n' hne
    rw [(C07_refines loc _).2.1, (C07_refines loc _).2.1, happ, lookup_put_ne _ _ _ _ hne]

/-- C07. Refused loads (bad name, unknown implementation) return null and change nothing at all. -/
theorem C07_refused_changes_nothing (s : St) (n : Str) (r : LoadRes) (h : validName n = false ∨ r = .createFails) :
    step s (.loadAsset n r) = (s, .ptr none) := by
  rcases h with h | rfl
  · simp [step, loadAsset, h]
  · by_cases hv : validName n = false <;> simp [step, loadAsset, hv]

/-- C07. Slots are stable: once a name has a slot it keeps it for ever (whatever happens later). -/
theorem C07_slot_stable (loc : Str) (ops ops' : List Op) (n : Str) (i : Nat)
    (h : (run (St.init loc) ops).1.index.find? n = some i) :
    (run (run (St.init loc) ops).1 ops').1.index.find? n = some i := by
  have hrel := (run_rel (rel_init loc) ops).1
  revert h hrel
  generalize (run (St.init loc) ops).1 = s
  generalize (runAbs (St.init loc).loc [] ops).1 = m
  intro h hrel
  clear ops
  induction ops' generalizing s m with
  | nil => exact h
  | cons o ops' ih =>
    simp only [run]
    refine ih (step s o).1 (next s.loc m o).1 ?_ (step_rel hrel o).1
    cases o with
    | loadAsset n' r =>
      by_cases hv : validName n' = true
      · cases r <;> simp only [step, loadAsset, hv, Bool.true_eq_false, if_false]
        · exact h
        all_goals
          cases hi : s.index.find? n' with
          | some j =>
            have hlt := rel_lt hrel hi
            simp only [hlt, if_true]; exact h
          | none =>
            simp only [AMap.find?_insert]
            by_cases hne : n = n'
            · subst hne; rw [hi] at h; cases h
            · rw [if_neg hne]; exact h
      · have hv' : validName n' = false := by simpa using hv
        simpa [step, loadAsset, hv'] using h
    | loadSerialized n' r =>
      cases hi : s.index.find? n' with
      | some j => simpa [step, loadSerialized, hi] using h
      | none =>
        have hne : n ≠ n' := by rintro rfl; rw [hi] at h; cases h
        cases r <;> simp only [step, loadSerialized, hi, AMap.find?_insert, if_neg hne] <;> exact h

/-- Non-vacuity for C07: load, reload, refused loads, serialized loads. -/
example : validName "film_1".toList = true ∧ validName "a.b".toList = false ∧ validName [] = false := by decide
example : (run (St.init "$.assets".toList) [.loadAsset "a".toList (.constructs 1), .loadAsset "b".toList (.constructs 2),
    .loadAsset "a".toList (.constructs 3), .loadAsset "x y".toList (.constructs 4), .loadSerialized "b".toList (.ok 5),
    .loadSerialized "c".toList .throws]).2 =
    [.ptr (some 1), .ptr (some 2), .ptr (some 3), .ptr none, .exception, .exception] := by decide

/-! ### C08: consistency of slots, index map and locators -/

/-- C08. Invariants of every reachable state. -/
theorem C08_consistent (loc : Str) (ops : List Op) :
    let s := (run (St.init loc) ops).1
    (∀ n i, s.index.find? n = some i → i < s.slots.length) ∧
    (∀ n n' i, s.index.find? n = some i → s.index.find? n' = some i → n = n') ∧
    (∀ i, i < s.slots.length → ∃ n, s.index.find? n = some i) ∧
    (∀ n i a, s.index.find? n = some i → s.slots[i]? = some (some a) → a.loc = loc ++ '.' :: n) := by
  have h := run_rel (rel_init loc) ops
  have hrel := h.1
  refine ⟨fun n i hi => rel_lt hrel hi, ?_, ?_, ?_⟩
  · intro n n' i h1 h2
    have h1 := (hrel.index n i).mp h1
    have h2 := (hrel.index n' i).mp h2
    rw [h1] at h2; simpa using h2
  · intro i hi
    rw [hrel.slots, List.length_map] at hi
    refine ⟨(runAbs (St.init loc).loc [] ops).1[i].1, ?_⟩
    rw [hrel.index]; simp [hi]
  · -- locators
    have hloc : ∀ (ops : List Op) (m : Abs), (∀ n a, (n, some a) ∈ m → a.loc = loc ++ '.' :: n) →
        ∀ n a, (n, some a) ∈ (runAbs loc m ops).1 → a.loc = loc ++ '.' :: n := by
      intro ops
      induction ops with
      | nil => intro m hm; exact hm
      | cons o ops ih =>
        intro m hm
        simp only [runAbs]
        apply ih
        have hput : ∀ n0 (b : Asset), b.loc = loc ++ '.' :: n0 → ∀ n a, (n, some a) ∈ put m n0 (some b) → a.loc = loc ++ '.' :: n := by
          intro n0 b hb n a hna
          unfold put at hna
          split at hna
          · obtain ⟨e, he, heq⟩ := List.mem_map.mp hna
            split at heq
            · next h1 =>
              have h2 : n = n0 := by rw [← h1]; exact (congrArg Prod.fst heq).symm
              have h3 : b = a := by simpa using congrArg Prod.snd heq
              rw [← h3, h2]; exact hb
            · exact hm n a (heq ▸ he)
          · rcases List.mem_append.mp hna with h1 | h1
            · exact hm n a h1
            · simp at h1; rw [h1.1, h1.2]; exact hb
        cases o with
        | loadAsset n0 r =>
          unfold next
          by_cases hv : validName n0 = true
          · simp only [hv, if_true]
            cases r with
            | createFails => exact hm
            | constructs id => exact hput n0 _ rfl
            | throws id => exact hput n0 _ rfl
          · simp only [hv]; exact hm
        | loadSerialized n0 r =>
          unfold next
          by_cases hv : n0 ∈ m.map Prod.fst
          · simp only [hv, if_true]; exact hm
          · simp only [hv, if_false]
            cases r with
            | throws =>
              intro n a hna
              rcases List.mem_append.mp hna with h1 | h1
              · exact hm n a h1
              · simp at h1
            | ok id =>
              intro n a hna
              rcases List.mem_append.mp hna with h1 | h1
              · exact hm n a h1
              · simp at h1; rw [h1.1, h1.2]
    intro n i a hi hs
    rw [hrel.index] at hi
    rw [hrel.slots] at hs
    apply hloc ops [] (by simp) n a
    have hlt : i < (runAbs loc [] ops).1.length := by
      have := (List.getElem?_eq_some_iff.mp hi).1; simpa [St.init] using this
    have h1 : (runAbs loc [] ops).1[i].1 = n := by simpa [St.init, hlt] using hi
    have h2 : (runAbs loc [] ops).1[i].2 = some a := by simpa [St.init, hlt] using hs
    have : (runAbs loc [] ops).1[i] = (n, some a) := by rw [← h1, ← h2]
    rw [← this]; exact List.getElem_mem hlt

/-- C08. Accepted names of load_asset are dot-free and non-empty, so their locators are found again (with C03). -/
theorem C08_valid_names_good (n : Str) (h : validName n = true) : n ≠ [] ∧ '.' ∉ n := by
  unfold validName at h
  simp only [Bool.and_eq_true, Bool.not_eq_true', List.all_eq_true] at h
  refine ⟨by rintro rfl; simp at h, fun hd => ?_⟩
  have := h.2 '.' hd
  revert this; decide

/-- C11 (partial). A refused load leaves everything as it was; missing: exceptions from construct() and failing deserialization. -/
theorem C11_refused_load_keeps_asset_partial (s : St) (n : Str) (r : LoadRes) (h : validName n = false ∨ r = .createFails) :
    underlying (step s (.loadAsset n r)).1 n = underlying s n := by
  rw [C07_refused_changes_nothing s n r h]

/-- C11, negation: when construct() of the replacement throws, the name denotes the half-constructed component, the previous
    asset (identity 1) is gone. -/
theorem C11_negation_construct_throws :
    underlying (run (St.init "$".toList) [.loadAsset "a".toList (.constructs 1), .loadAsset "a".toList (.throws 2)]).1 "a".toList
      = some ⟨2, "$.a".toList, false⟩ := by decide

/-- C11, negation: a failing first load leaves a half-constructed asset registered. -/
theorem C11_negation_first_load_throws :
    (run (St.init "$".toList) [.loadAsset "a".toList (.throws 2)]).2 = [.exception] ∧
    underlying (run (St.init "$".toList) [.loadAsset "a".toList (.throws 2)]).1 "a".toList = some ⟨2, "$.a".toList, false⟩ := by decide

/-- C11, negation: after a failed load_serialized (e.g. missing file) the name is taken by a null slot and every later
    load_serialized under that name is refused, even with a correct file. -/
theorem C11_negation_serialized_name_taken (id : Nat) :
    (run (St.init "$".toList) [.loadSerialized "a".toList .throws, .loadSerialized "a".toList (.ok id)]).2 = [.exception, .exception] ∧
    underlying (run (St.init "$".toList) [.loadSerialized "a".toList .throws, .loadSerialized "a".toList (.ok id)]).1 "a".toList = none := by
  constructor <;> rfl

/-- C08, negation: load_serialized accepts names that load_asset refuses; a dotted one is registered but (C03) not reachable by locator. -/
theorem C08_negation_serialized_bad_name :
    validName "a.b".toList = false ∧
    underlying (run (St.init "$".toList) [.loadSerialized "a.b".toList (.ok 1)]).1 "a.b".toList = some ⟨1, "$.a.b".toList, true⟩ := by decide

end LM.AssetGroup
