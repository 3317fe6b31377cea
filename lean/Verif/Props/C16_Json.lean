import Verif.Model.Json
import Mathlib.Tactic.Linarith
namespace LM.Json
open LM.Locator (Comp Res)
variable {N : Type} [Zero N] [One N]

/-- Readable as a number. -/
def IsNum (j : Json N) : Prop := ∃ x, toNum j = .ok x

theorem toNum_cases (j : Json N) : (∃ x, toNum j = .ok x) ∨ toNum j = .typeError := by
  cases j <;> first | exact .inl ⟨_, rfl⟩ | exact .inr rfl

theorem readAll_ok (a : List (Json N)) (f : Nat → Nat) (g : Nat → N) (n : Nat) (h : ∀ k < n, a[f k]? = some (.num (g k))) :
    readAll a f n = .ok ((List.range n).map g) := by
  induction n with
  | zero => rfl
  | succ n ih =>
    rw [readAll, ih (fun k hk => h k (by omega))]
    simp only [at?, h n (by omega), toNum, List.range_succ, List.map_append, List.map_cons, List.map_nil]

theorem readAll_no_ub (a : List (Json N)) (f : Nat → Nat) (n : Nat) (h : ∀ k < n, f k < a.length) :
    (∃ xs, readAll a f n = .ok xs ∧ xs.length = n ∧ ∀ k (hk : k < n), IsNum (a[f k]'(h k hk))) ∨
    (readAll a f n = .typeError ∧ ∃ k, ∃ hk : k < n, ¬ IsNum (a[f k]'(h k hk))) := by
  induction n with
  | zero => exact .inl ⟨[], rfl, rfl, fun k hk => absurd hk (by omega)⟩
  | succ n ih =>
    rcases ih (fun k hk => h k (by omega)) with ⟨xs, h1, h2, h3⟩ | ⟨h1, k, hk, h2⟩
    · rw [readAll, h1]
      simp only [at?, List.getElem?_eq_getElem (h n (by omega))]
      rcases toNum_cases (a[f n]'(h n (by omega))) with ⟨x, hx⟩ | hx
      · left
        simp only [hx]
        refine ⟨xs ++ [x], rfl, by simp [h2], ?_⟩
        intro k hk
        by_cases hkn : k = n
        · subst hkn; exact ⟨x, hx⟩
        · exact h3 k (by omega)
      · right
        simp only [hx]
        refine ⟨trivial, n, by omega, ?_⟩
        rintro ⟨x, hx'⟩
        rw [hx] at hx'; cases hx'
    · right
      rw [readAll, h1]
      exact ⟨rfl, k, by omega, h2⟩

/-- C16. A vector converted to JSON and back is unchanged. -/
theorem C16_vec_round_trip (v : List N) : vecFromJson v.length (vecToJson v) = .ok v := by
  unfold vecFromJson vecToJson
  simp only [List.length_map, ne_eq, not_true_eq_false, if_false]
  by_cases hv : v = []
  · subst hv; rfl
  · have x0 : N := v.head hv
    rw [readAll_ok _ id (fun k => (v[k]?).getD x0) v.length]
    · congr 1
      apply List.ext_getElem?
      intro k
      by_cases hk : k < v.length
      · simp [hk]
      · simp [hk]
    · intro k hk
      simp [hk]

/-- C16. Reading a vector of n components: succeeds exactly for arrays of n numbers, with n components; any other JSON value gives an error;
    no element outside of the array is ever read. -/
theorem C16_vec_reject (n : Nat) (j : Json N) :
    ((∃ v, vecFromJson n j = .ok v ∧ v.length = n) ∧ ∃ a, j = .arr a ∧ a.length = n ∧ ∀ x ∈ a, IsNum x) ∨
    ((vecFromJson n j = .invalid ∨ vecFromJson n j = .typeError) ∧ ¬ ∃ a, j = .arr a ∧ a.length = n ∧ ∀ x ∈ a, IsNum x) := by
  cases j with
  | arr a =>
    by_cases hn : a.length = n
    · have hf : vecFromJson n (.arr a) = readAll a id n := by simp [vecFromJson, hn]
      rw [hf]
      rcases readAll_no_ub a id n (fun k hk => by simpa [hn] using hk) with ⟨xs, h1, h2, h3⟩ | ⟨h1, k, hk, h2⟩
      · left
        refine ⟨⟨xs, h1, h2⟩, a, rfl, hn, ?_⟩
        intro x hx
        obtain ⟨k, hk, rfl⟩ := List.getElem_of_mem hx
        exact h3 k (by omega)
      · right
        refine ⟨.inr h1, ?_⟩
        rintro ⟨a', ha, _, h⟩
        cases ha
        exact h2 (h _ (List.getElem_mem _))
    · right
      refine ⟨.inl (by simp [vecFromJson, hn]), ?_⟩
      rintro ⟨a', ha, h, _⟩
      cases ha
      exact hn h
  | _ =>
    right
    refine ⟨.inl rfl, ?_⟩
    rintro ⟨a', ha, _⟩
    cases ha

theorem foldl_set_other (L : List Nat) (f : Nat → Nat) (g : Nat → N) (a : List N) (k : Nat) (hk : ∀ j ∈ L, f j ≠ k) :
    (L.foldl (fun a j => a.set (f j) (g j)) a)[k]? = a[k]? := by
  induction L generalizing a with
  | nil => rfl
  | cons j L ih =>
    rw [List.foldl_cons, ih _ (fun i hi => hk i (by simp [hi])), List.getElem?_set_ne (hk j (by simp))]

theorem foldl_set_length (L : List Nat) (f : Nat → Nat) (g : Nat → N) (a : List N) :
    (L.foldl (fun a j => a.set (f j) (g j)) a).length = a.length := by
  induction L generalizing a with
  | nil => rfl
  | cons j L ih => rw [List.foldl_cons, ih, List.length_set]

theorem foldl_set_hit (L : List Nat) (f : Nat → Nat) (g : Nat → N) (a : List N) (j : Nat) (hj : j ∈ L) (hlt : f j < a.length)
    (hinj : ∀ i ∈ L, f i = f j → i = j) : (L.foldl (fun a j => a.set (f j) (g j)) a)[f j]? = some (g j) := by
  induction L generalizing a with
  | nil => cases hj
  | cons i L ih =>
    rw [List.foldl_cons]
    by_cases hjL : j ∈ L
    · exact ih _ hjL (by rw [List.length_set]; exact hlt) (fun k hk => hinj k (by simp [hk]))
    · have hij : j = i := by
        rcases List.mem_cons.mp hj with h | h
        · exact h
        · exact absurd h hjL
      subst hij
      rw [foldl_set_other]
      · simp [hlt]
      · intro k hk he
        exact hjL ((hinj k (by simp [hk]) he) ▸ hk)

theorem writeCol_length (R : Nat) (v : Nat → Nat → N) (i : Nat) (a : List N) : (writeCol R v i a).length = a.length :=
  foldl_set_length (List.range R) (fun j => i * R + j) (fun j => v i j) a

theorem cols_length (R : Nat) (v : Nat → Nat → N) (L : List Nat) (a : List N) :
    (L.foldl (fun a i => writeCol R v i a) a).length = a.length := by
  induction L generalizing a with
  | nil => rfl
  | cons i L ih => rw [List.foldl_cons, ih, writeCol_length]

theorem idx_inj (R i i' j j' : Nat) (hj : j < R) (hj' : j' < R) (h : i * R + j = i' * R + j') : i = i' ∧ j = j' := by
  have h1 : (i * R + j) / R = i := by
    rw [Nat.add_comm, Nat.add_mul_div_right _ _ (by omega), Nat.div_eq_of_lt hj, Nat.zero_add]
  have h2 : (i' * R + j') / R = i' := by
    rw [Nat.add_comm, Nat.add_mul_div_right _ _ (by omega), Nat.div_eq_of_lt hj', Nat.zero_add]
  have : i = i' := by rw [← h1, ← h2, h]
  subst this
  exact ⟨rfl, by omega⟩

theorem cols_get (C R : Nat) (v : Nat → Nat → N) (a : List N) (ha : a.length = C * R) (L : List Nat) (hL : ∀ i ∈ L, i < C) (i j : Nat) (hi : i ∈ L) (hj : j < R) :
    (L.foldl (fun a i => writeCol R v i a) a)[i * R + j]? = some (v i j) := by
  have hlt : i * R + j < C * R := by
    have := hL i hi
    calc i * R + j < i * R + R := by omega
      _ = (i + 1) * R := by rw [Nat.succ_mul]
      _ ≤ C * R := Nat.mul_le_mul_right R (by omega)
  induction L generalizing a with
  | nil => cases hi
  | cons k L ih =>
    rw [List.foldl_cons]
    by_cases hiL : i ∈ L
    · exact ih _ (by rw [writeCol_length, ha]) (fun x hx => hL x (by simp [hx])) hiL
    · have hik : i = k := by
        rcases List.mem_cons.mp hi with h | h
        · exact h
        · exact absurd h hiL
      subst hik
      have hother : ∀ (L : List Nat) (b : List N), i ∉ L → (L.foldl (fun a i => writeCol R v i a) b)[i * R + j]? = b[i * R + j]? := by
        intro L
        induction L with
        | nil => intro b _; rfl
        | cons m L ihL =>
          intro b hm
          rw [List.foldl_cons, ihL _ (fun h => hm (by simp [h]))]
          unfold writeCol
          apply foldl_set_other (List.range R) (fun j => m * R + j) (fun j => v m j)
          intro j' hj' he
          have := (idx_inj R m i j' j (List.mem_range.mp hj') hj he).1
          exact hm (by simp [this])
      rw [hother L _ hiL]
      unfold writeCol
      refine foldl_set_hit (List.range R) (fun j => i * R + j) (fun j => v i j) a j (List.mem_range.mpr hj) (by omega) ?_
      intro k _ he
      omega

/-- C16. The JSON array of a matrix lists the columns one after the other: element i*R+j is column i, row j. -/
theorem C16_mat_column_order (C R : Nat) (v : Nat → Nat → N) :
    ∃ a : List N, matToJson C R v = .arr (a.map .num) ∧ a.length = C * R ∧ ∀ i < C, ∀ j < R, a[i * R + j]? = some (v i j) := by
  refine ⟨_, rfl, by rw [cols_length, List.length_replicate], ?_⟩
  intro i hi j hj
  exact cols_get C R v _ (by simp) (List.range C) (fun i hi => List.mem_range.mp hi) i j (List.mem_range.mpr hi) hj

/-- C16. A matrix converted to JSON and back has the same columns. -/
theorem C16_mat_round_trip (C R : Nat) (v : Nat → Nat → N) :
    matFromJson C R (matToJson C R v) = .ok ((List.range C).map (fun i => (List.range R).map (fun j => v i j))) := by
  obtain ⟨a, h1, h2, h3⟩ := C16_mat_column_order C R v
  rw [h1]
  unfold matFromJson
  simp only [List.length_map, h2, ne_eq, not_true_eq_false, if_false]
  have : ∀ n ≤ C, readCols R (a.map .num) n = .ok ((List.range n).map (fun i => (List.range R).map (fun j => v i j))) := by
    intro n hn
    induction n with
    | zero => rfl
    | succ n ih =>
      rw [readCols, ih (by omega)]
      simp only
      rw [readAll_ok (a.map .num) (fun j => n * R + j) (fun j => v n j) R]
      · simp [List.range_succ]
      · intro k hk
        simp [h3 n (by omega) k hk]
  exact this C (Nat.le_refl C)

theorem readCols_no_ub (R : Nat) (a : List (Json N)) (C n : Nat) (ha : a.length = C * R) (hn : n ≤ C) :
    (∃ cs, readCols R a n = .ok cs ∧ cs.length = n ∧ ∀ c ∈ cs, c.length = R) ∨ readCols R a n = .typeError := by
  induction n with
  | zero => exact .inl ⟨[], rfl, rfl, fun c hc => by cases hc⟩
  | succ n ih =>
    rcases ih (by omega) with ⟨cs, h1, h2, h3⟩ | h1
    · rw [readCols, h1]
      simp only
      have hb : ∀ k < R, n * R + k < a.length := by
        intro k hk
        rw [ha]
        calc n * R + k < n * R + R := by omega
          _ = (n + 1) * R := by rw [Nat.succ_mul]
          _ ≤ C * R := Nat.mul_le_mul_right R hn
      rcases readAll_no_ub a (fun j => n * R + j) R hb with ⟨xs, g1, g2, _⟩ | ⟨g1, _⟩
      · left
        rw [g1]
        refine ⟨cs ++ [xs], rfl, by simp [h2], ?_⟩
        intro c hc
        rcases List.mem_append.mp hc with h | h
        · exact h3 c h
        · rw [List.mem_singleton.mp h]; exact g2
      · right; rw [g1]
    · right; rw [readCols, h1]

/-- C16. Reading a matrix: arrays of another size and values of another type are errors, and no element outside of the array is read. -/
theorem C16_mat_reject (C R : Nat) (j : Json N) :
    (∃ cs, matFromJson C R j = .ok cs ∧ cs.length = C ∧ (∀ c ∈ cs, c.length = R) ∧ ∃ a, j = .arr a ∧ a.length = C * R) ∨
    matFromJson C R j = .invalid ∨ matFromJson C R j = .typeError := by
  cases j with
  | arr a =>
    by_cases hn : a.length = C * R
    · have hf : matFromJson C R (.arr a) = readCols R a C := by simp [matFromJson, hn]
      rw [hf]
      rcases readCols_no_ub R a C C hn (Nat.le_refl C) with ⟨cs, h1, h2, h3⟩ | h1
      · exact .inl ⟨cs, h1, h2, h3, a, rfl, hn⟩
      · exact .inr (.inr h1)
    · exact .inr (.inl (by simp [matFromJson, hn]))
  | _ => exact .inr (.inl rfl)

theorem merge_fold (o2 : List (Str × Json N)) (t : AMap Str (Json N)) (k : Str) :
    AMap.find? (o2.foldl (fun (t : AMap Str (Json N)) e => if (AMap.find? t e.1).isSome then t else AMap.insert t e.1 e.2) t) k =
      match AMap.find? t k with | some x => some x | none => AMap.find? (o2 : AMap Str (Json N)) k := by
  induction o2 generalizing t with
  | nil => cases h : AMap.find? t k <;> simp [h]
  | cons e o2 ih =>
    rw [List.foldl_cons, ih]
    obtain ⟨k', x⟩ := e
    simp only [AMap.find?]
    by_cases hs : (AMap.find? t k').isSome
    · rw [if_pos hs]
      cases h : AMap.find? t k with
      | some y => rfl
      | none =>
        have : k' ≠ k := by rintro rfl; rw [h] at hs; cases hs
        simp [this]
    · rw [if_neg hs, AMap.find?_insert]
      by_cases hk : k = k'
      · subst hk
        have : AMap.find? t k = none := by simpa using hs
        simp [this]
      · have : k' ≠ k := fun h => hk h.symm
        simp [hk, this]

/-- C16. merge(a, b) has, for each key, a's value if a has the key, otherwise b's value (and no other keys). -/
theorem C16_merge (o1 o2 : List (Str × Json N)) :
    ∃ m, merge (.obj o1) (.obj o2) = some m ∧
      ∀ k, find m k = match find (.obj o1) k with | some x => some x | none => find (.obj o2) k :=
  ⟨_, rfl, fun k => merge_fold o2 o1 k⟩

/-- Keys stay distinct, so the result is an object. -/
theorem C16_merge_keys_distinct (o1 o2 m : List (Str × Json N)) (h1 : (o1.map Prod.fst).Nodup) (h : merge (.obj o1) (.obj o2) = some (.obj m)) :
    (m.map Prod.fst).Nodup := by
  simp only [merge, Option.some.injEq, Json.obj.injEq] at h
  subst h
  induction o2 generalizing o1 with
  | nil => exact h1
  | cons e o2 ih =>
    rw [List.foldl_cons]
    apply ih
    split
    · exact h1
    · exact AMap.keys_insert_nodup e.1 e.2 h1

/-- C16. value(name) reports a missing property exactly when the key is missing (the conversion itself never reports that);
    otherwise it is the converted element. -/
theorem C16_value {T : Type} (conv : Json N → Out T) (hconv : ∀ x, conv x ≠ .missing) (j : Json N) (name : Str) :
    (value conv j name = .missing ↔ find j name = none) ∧ (∀ x, find j name = some x → value conv j name = conv x) := by
  unfold value
  cases h : find j name with
  | none => simp
  | some x => simp [hconv x]

/-- C16. value(name, default) gives the default exactly like a present element would give its value, and never fails for a missing key. -/
theorem C16_value_default {T : Type} (conv : Json N → Out T) (j : Json N) (name : Str) (d : T) :
    (find j name = none → valueOr conv j name d = .ok d) ∧ (∀ x, find j name = some x → valueOr conv j name d = conv x) := by
  unfold valueOr
  cases h : find j name with
  | none => simp
  | some x => simp

/-- C16. value_or_none is empty exactly when the key is missing. -/
theorem C16_value_or_none {T : Type} (conv : Json N → Out T) (j : Json N) (name : Str) :
    (valueOrNone conv j name = .ok none ↔ find j name = none) ∧
      ∀ x v, find j name = some x → (valueOrNone conv j name = .ok (some v) ↔ conv x = .ok v) := by
  unfold valueOrNone
  cases h : find j name with
  | none => simp
  | some x =>
    constructor
    · cases hc : conv x <;> simp [hc]
    · intro y v hy
      cases hy
      cases hc : conv x <;> simp [hc]

/-- C16. comp_ref succeeds exactly when the property is a string that locates a component of the right interface. -/
theorem C16_comp_ref (root : Option Comp) (cast : Comp → Bool) (j : Json N) (name : Str) (c : Comp) :
    compRef root cast j name = .ok c ↔ ∃ ref, find j name = some (.str ref) ∧ Locator.get root ref = .found c ∧ cast c = true := by
  unfold compRef
  cases h : find j name with
  | none => simp
  | some x =>
    cases x with
    | str ref =>
      simp only [Option.some.injEq, Json.str.injEq, exists_eq_left']
      cases hg : Locator.get root ref with
      | found c' =>
        by_cases hc : cast c' = true
        · simp only [hc, if_true, Out.ok.injEq, Res.found.injEq]
          constructor
          · rintro rfl; exact ⟨rfl, hc⟩
          · exact fun h => h.1
        · simp only [hc, Bool.false_eq_true, if_false]
          constructor
          · intro h; cases h
          · rintro ⟨h1, h2⟩; cases h1; exact absurd h2 hc
      | null => simp
      | throws => simp
    | _ => simp

/-- C16. comp_ref_or_nullptr never reports a missing or invalid property: it gives what comp_ref gives, or null
    (an exception from component lookup still escapes). -/
theorem C16_comp_ref_or_null (root : Option Comp) (cast : Comp → Bool) (j : Json N) (name : Str) :
    (∀ c, compRefOrNull root cast j name = .ok (some c) ↔ compRef root cast j name = .ok c) ∧
    (compRefOrNull root cast j name = .ok none ∨ (∃ c, compRefOrNull root cast j name = .ok (some c)) ∨ compRefOrNull root cast j name = .throws) := by
  unfold compRefOrNull compRef
  cases h : find j name with
  | none => simp
  | some x =>
    cases x with
    | str ref =>
      simp only
      by_cases he : ref = []
      · subst he
        have hg : Locator.get root [] = .null := by unfold Locator.get; cases root <;> rfl
        simp [hg]
      · have he' : ref.isEmpty = false := by cases ref <;> simp_all
        simp only [he', Bool.false_eq_true, if_false]
        cases hg : Locator.get root ref with
        | found c' => by_cases hc : cast c' = true <;> simp [hc]
        | null => simp
        | throws => simp
    | _ => simp

/-- Non-vacuity. -/
example : matToJson 2 3 (fun i j => 10 * i + j) = .arr ([0, 1, 2, 10, 11, 12].map .num) := rfl
example : matFromJson 2 3 (.arr ([0, 1, 2, 10, 11, 12].map (Json.num (N := Nat)))) = .ok [[0, 1, 2], [10, 11, 12]] := rfl
example : vecFromJson 3 (.arr ([1, 2].map (Json.num (N := Nat)))) = .invalid := rfl
example : find (N := Nat) (.obj [("a".toList, .num 1)]) "a".toList = some (.num 1) := rfl

end LM.Json
