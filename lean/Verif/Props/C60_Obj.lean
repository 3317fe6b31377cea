import Verif.Model.Obj
import Mathlib.Tactic.Ring
import Mathlib.Tactic.Linarith
import Mathlib.Tactic.IntervalCases
/-
  C60: indices of OBJ faces.
-/
namespace LM.Obj
open LM

/-! ### Specification: how a face is written -/

/-- Decimal spelling of a natural number. -/
def dec (n : ℕ) : List Char := if h : n < 10 then [Char.ofNat ('0'.toNat + n)] else dec (n / 10) ++ [Char.ofNat ('0'.toNat + n % 10)]
termination_by n
decreasing_by omega

/-- Spelling of an integer. -/
def spellInt (i : ℤ) : List Char := if i < 0 then '-' :: dec i.natAbs else dec i.natAbs

/-- A corner of a face as written: index of the position, and of texture coordinates and normal if given. -/
structure Corner where
  p : ℤ
  t : Option ℤ
  n : Option ℤ

/-- p, p/t, p//n or p/t/n. -/
def spellCorner (c : Corner) : List Char :=
  match c.t, c.n with
  | none, none => spellInt c.p
  | some t, none => spellInt c.p ++ '/' :: spellInt t
  | none, some n => spellInt c.p ++ '/' :: '/' :: spellInt n
  | some t, some n => spellInt c.p ++ '/' :: spellInt t ++ '/' :: spellInt n

/-- Corners, each preceded by blanks, and what ends the line: blanks, then a carriage return if the file has Windows line ends. -/
def spellCorners : List (List Char × Corner) → (trail : List Char) → List Char
  | [], trail => trail
  | (w, c) :: r, trail => w ++ spellCorner c ++ spellCorners r trail

/-- Blanks. -/
def Blank (w : List Char) : Prop := ∀ c ∈ w, c = ' ' ∨ c = '\t'
/-- What may follow the last corner. -/
def Trail (t : List Char) : Prop := ∃ w, Blank w ∧ (t = w ∨ t = w ++ ['\r'])

/-- The index written i refers to the k-th of the n elements read so far: counted from the first one, starting at 1, or backwards from the last one, starting at -1. -/
def Denotes (i : ℤ) (n k : ℕ) : Prop := k < n ∧ (i = (k : ℤ) + 1 ∨ i = (k : ℤ) - n)

/-- An int. -/
def IsInt (i : ℤ) : Prop := -2 ^ 31 ≤ i ∧ i < 2 ^ 31
def Corner.Ints (c : Corner) : Prop := IsInt c.p ∧ (∀ t, c.t = some t → IsInt t) ∧ ∀ n, c.n = some n → IsInt n

/-- The indices a corner stands for when np positions, nt texture coordinates and nn normals were read; absent ones are -1. -/
structure Corner.StandsFor (np nt nn : ℕ) (c : Corner) (i : FaceIndex) : Prop where
  p : ∃ k, Denotes c.p np k ∧ i.p = k
  t : match c.t with | none => i.t = -1 | some t => ∃ k, Denotes t nt k ∧ i.t = k
  n : match c.n with | none => i.n = -1 | some n => ∃ k, Denotes n nn k ∧ i.n = k

/-! ### C60: numbers -/

/-- The resolved index is k inside the vertices read so far exactly when the written index denotes the k-th vertex. -/
theorem C60_index (i : ℤ) (n k : ℕ) : (parseIndex i n = k ∧ k < n) ↔ Denotes i n k := by
  unfold parseIndex Denotes
  split_ifs with h1 h2
  · constructor
    · rintro ⟨h, hk⟩; exact ⟨hk, Or.inr (by omega)⟩
    · rintro ⟨hk, h | h⟩ <;> exact ⟨by omega, hk⟩
  · constructor
    · rintro ⟨h, hk⟩; exact ⟨hk, Or.inl (by omega)⟩
    · rintro ⟨hk, h | h⟩ <;> exact ⟨by omega, hk⟩
  · constructor
    · rintro ⟨h, hk⟩
      exact h.elim
    · rintro ⟨hk, h | h⟩ <;> omega

/-- The relative and the absolute spelling of the same vertex agree, at any moment. -/
theorem C60_agree (n k : ℕ) (hk : k < n) : parseIndex ((k : ℤ) + 1) n = k ∧ parseIndex ((k : ℤ) - n) n = k := by
  exact ⟨((C60_index _ n k).mpr ⟨hk, Or.inl rfl⟩).1, ((C60_index _ n k).mpr ⟨hk, Or.inr rfl⟩).1⟩

/-- A written zero means absent, as a missing index does. -/
theorem C60_zero (n : ℕ) : parseIndex 0 n = -1 ∧ ({} : FaceIndex) = ⟨-1, -1, -1⟩ := ⟨by simp [parseIndex], rfl⟩

/-- An index that denotes no vertex is not rejected: it is resolved to a number outside the vertices, which is -1, absent, exactly for the first index before the first vertex and for zero. -/
theorem C60_boundary_outside (i : ℤ) (n : ℕ) (h : ∀ k, ¬ Denotes i n k) : (parseIndex i n < 0 ∨ (n : ℤ) ≤ parseIndex i n) ∧ (parseIndex i n = -1 ↔ i = 0 ∨ i = -(n : ℤ) - 1) := by
  have h1 : ¬ (0 ≤ parseIndex i n ∧ parseIndex i n < n) := by
    rintro ⟨h0, h1⟩
    exact h (parseIndex i n).toNat ((C60_index i n _).mp ⟨by omega, by omega⟩)
  refine ⟨by omega, ?_⟩
  unfold parseIndex
  split_ifs <;> omega

/-! ### Spelling -/

theorem digit_val (d : ℕ) (hd : d < 10) : (Char.ofNat ('0'.toNat + d)).toNat - '0'.toNat = d ∧ (Char.ofNat ('0'.toNat + d)).isDigit = true := by
  interval_cases d <;> decide

theorem digits_snoc (l : CStr) (c : Char) : digits (l ++ [c]) = digits l * 10 + (c.toNat - '0'.toNat) := by
  simp [digits]

theorem dec_spec (n : ℕ) : digits (dec n) = n ∧ (∀ c ∈ dec n, c.isDigit = true) ∧ dec n ≠ [] := by
  induction n using Nat.strong_induction_on with
  | _ n ih =>
    rw [dec]
    split
    · rename_i h
      refine ⟨?_, ?_, by simp⟩
      · simp only [digits, List.foldl_cons, List.foldl_nil]
        rw [(digit_val n h).1]; omega
      · intro c hc
        rw [List.mem_singleton] at hc
        subst hc
        exact (digit_val n h).2
    · rename_i h
      obtain ⟨h1, h2, h3⟩ := ih (n / 10) (by omega)
      have hm : n % 10 < 10 := Nat.mod_lt _ (by norm_num)
      refine ⟨?_, ?_, by simp⟩
      · rw [digits_snoc, h1, (digit_val _ hm).1]; omega
      · intro c hc
        rw [List.mem_append, List.mem_singleton] at hc
        rcases hc with hc | rfl
        · exact h2 c hc
        · exact (digit_val _ hm).2

theorem takeWhile_app {α : Type} (p : α → Bool) (l r : List α) (hl : ∀ c ∈ l, p c = true) (hr : ∀ c ∈ r.head?, p c = false) : (l ++ r).takeWhile p = l ∧ (l ++ r).dropWhile p = r := by
  induction l with
  | nil =>
    cases r with
    | nil => simp
    | cons a r => have := hr a (by simp); simp [this]
  | cons a l ih =>
    have := ih (fun c hc => hl c (List.mem_cons_of_mem _ hc))
    have ha := hl a (by simp)
    simp [ha, this]

theorem digit_cases (c : Char) (h : c.isDigit = true) : isSpace c = false ∧ ws c = false ∧ c ≠ '-' ∧ c ≠ '+' ∧ c ≠ '/' ∧ (!(c = '/' || ws c)) = true := by
  have h1 : '0'.toNat ≤ c.toNat ∧ c.toNat ≤ '9'.toNat := by
    simp only [Char.isDigit, Bool.and_eq_true, decide_eq_true_eq] at h
    exact ⟨by have := h.1; simpa [UInt32.le_iff_toNat_le] using this, by have := h.2; simpa [UInt32.le_iff_toNat_le] using this⟩
  have ne : ∀ d : Char, d.toNat < '0'.toNat → c ≠ d := by
    rintro d hd rfl; omega
  refine ⟨?_, ?_, ne _ (by decide), ne _ (by decide), ne _ (by decide), ?_⟩
  · simp only [isSpace, Bool.or_eq_false_iff, decide_eq_false_iff_not]
    refine ⟨⟨⟨⟨⟨?_, ?_⟩, ?_⟩, ?_⟩, ?_⟩, ?_⟩ <;> exact ne _ (by decide)
  · simp only [ws, Bool.or_eq_false_iff, decide_eq_false_iff_not]
    exact ⟨ne _ (by decide), ne _ (by decide)⟩
  · simp only [ws, Bool.not_eq_true', Bool.or_eq_false_iff, decide_eq_false_iff_not]
    exact ⟨ne _ (by decide), ne _ (by decide), ne _ (by decide)⟩

/-- The head of the spelling of an integer. -/
theorem spellInt_cons (i : ℤ) : ∃ c r, spellInt i = c :: r ∧ (c = '-' ∨ c.isDigit = true) ∧ ∀ d ∈ r, d.isDigit = true := by
  obtain ⟨_, h2, h3⟩ := dec_spec i.natAbs
  unfold spellInt
  split
  · exact ⟨'-', _, rfl, Or.inl rfl, h2⟩
  · obtain ⟨c, r, e⟩ := List.exists_cons_of_ne_nil h3
    rw [e] at h2 ⊢
    exact ⟨c, r, rfl, Or.inr (h2 c (by simp)), fun d hd => h2 d (by simp [hd])⟩

theorem spellInt_token (i : ℤ) : ∀ c ∈ spellInt i, (!(c = '/' || ws c)) = true := by
  obtain ⟨c, r, e, h1, h2⟩ := spellInt_cons i
  rw [e]
  intro d hd
  rcases List.mem_cons.mp hd with rfl | hd
  · rcases h1 with rfl | h1
    · decide
    · exact (digit_cases d h1).2.2.2.2.2
  · exact (digit_cases d (h2 d hd)).2.2.2.2.2

theorem spellInt_head (i : ℤ) (r : List Char) : ∃ c q, spellInt i ++ r = c :: q ∧ isSpace c = false ∧ ws c = false := by
  obtain ⟨c, q, e, h1, _⟩ := spellInt_cons i
  refine ⟨c, q ++ r, by rw [e]; rfl, ?_⟩
  rcases h1 with rfl | h1
  · decide
  · exact ⟨(digit_cases c h1).1, (digit_cases c h1).2.1⟩

/-- atoi reads the integer it was given, up to the first character that is not a digit. -/
theorem C60_atoi (i : ℤ) (hi : IsInt i) (r : List Char) (hr : ∀ c ∈ r.head?, c.isDigit = false) : atoi (spellInt i ++ r) = some i := by
  obtain ⟨hv, h2, h3⟩ := dec_spec i.natAbs
  have hsp : (spellInt i ++ r).dropWhile isSpace = spellInt i ++ r := by
    obtain ⟨c, q, e, h, _⟩ := spellInt_head i r
    rw [e]; simp [h]
  have hsign : sign (spellInt i ++ r) = (decide (i < 0), dec i.natAbs ++ r) := by
    unfold spellInt
    by_cases hneg : i < 0
    · simp [hneg, sign]
    · simp only [hneg, if_false, decide_false]
      obtain ⟨c, q, e⟩ := List.exists_cons_of_ne_nil h3
      have hc := digit_cases c (h2 c (by rw [e]; simp))
      rw [e, List.cons_append]
      unfold sign
      split
      · rename_i h; exact absurd (List.cons.inj h).1 hc.2.2.1
      · rename_i h; exact absurd (List.cons.inj h).1 hc.2.2.2.1
      · rfl
  have hval : (if decide (i < 0) = true then -((i.natAbs : ℕ) : ℤ) else ((i.natAbs : ℕ) : ℤ)) = i := by
    by_cases hneg : i < 0
    · simp only [hneg, decide_true, if_true]; omega
    · simp only [hneg, decide_false, Bool.false_eq_true, if_false]; omega
  have hi' : -2 ^ 31 ≤ i ∧ i < 2 ^ 31 := hi
  unfold atoi
  simp only [hsp, hsign, (takeWhile_app _ _ r h2 hr).1, hv, hval]
  rw [if_pos hi']

theorem skipToken_int (i : ℤ) (r : List Char) : skipToken (spellInt i ++ r) = skipToken r := by
  unfold skipToken
  have : ∀ l : List Char, (∀ c ∈ l, (!(c = '/' || ws c)) = true) → (l ++ r).dropWhile (fun c => !(c = '/' || ws c)) = r.dropWhile (fun c => !(c = '/' || ws c)) := by
    intro l
    induction l with
    | nil => intro _; rfl
    | cons a l ih => 
      intro h
      have ha := h a (by simp)
      have := ih fun c hc => h c (by simp [hc])
      rw [List.cons_append, List.dropWhile_cons_of_pos (p := fun c => !(c = '/' || ws c)) ha]
      exact this
  exact this _ (spellInt_token i)

/-- What may follow a corner: nothing, the carriage return at the end of the line, or a blank. -/
def After (r : List Char) : Prop := r = [] ∨ r = ['\r'] ∨ ∃ c q, r = c :: q ∧ ws c = true

theorem After.head {r : List Char} (h : After r) : ∀ c ∈ r.head?, c.isDigit = false := by
  rcases h with rfl | rfl | ⟨c, q, rfl, hc⟩
  · simp
  · simp
  · intro d hd
    simp at hd; subst hd
    simp only [ws, Bool.or_eq_true, decide_eq_true_eq] at hc
    rcases hc with rfl | rfl <;> decide

/-- The rest after a corner for the purposes of the next one. -/
def Next (r t : List Char) : Prop := skipSpaces t = skipSpaces r ∨ (r = ['\r'] ∧ t = [])

theorem After.token {r : List Char} (h : After r) : (skipToken r = [] ∧ Next r []) ∨ ∃ c q, skipToken r = c :: q ∧ c ≠ '/' ∧ Next r q ∧ Next r (c :: q) := by
  rcases h with rfl | rfl | ⟨c, q, rfl, hc⟩
  · left; exact ⟨rfl, Or.inl rfl⟩
  · left; exact ⟨by decide, Or.inr ⟨rfl, rfl⟩⟩
  · right
    have h1 : skipToken (c :: q) = c :: q := by
      unfold skipToken
      rw [List.dropWhile_cons_of_neg (by simp [hc])]
    refine ⟨c, q, h1, ?_, Or.inl ?_, Or.inl rfl⟩
    · rintro rfl; simp [ws] at hc
    · unfold skipSpaces; rw [List.dropWhile_cons_of_pos hc]

/-- The indices of a corner, resolved. -/
def Corner.resolve (np nt nn : ℕ) (c : Corner) : FaceIndex :=
  ⟨parseIndex c.p np, (match c.t with | none => -1 | some t => parseIndex t nt), (match c.n with | none => -1 | some n => parseIndex n nn)⟩

theorem slash_head (r : List Char) : ∀ c ∈ ('/' :: r).head?, c.isDigit = false := by simp

theorem skipToken_slash (r : List Char) : skipToken ('/' :: r) = '/' :: r := by
  unfold skipToken; rw [List.dropWhile_cons_of_neg (by simp)]

theorem atoi_slash (r : List Char) : atoi ('/' :: r) = some 0 := by
  have h1 : ('/' :: r).dropWhile isSpace = '/' :: r := List.dropWhile_cons_of_neg (by decide)
  have h2 : ('/' :: r).takeWhile Char.isDigit = [] := by rw [List.takeWhile_cons_of_neg (by decide)]
  have h3 : sign ('/' :: r) = (false, '/' :: r) := rfl
  unfold atoi
  simp [h1, h2, h3, digits]

theorem parse_corner (np nt nn : ℕ) (c : Corner) (hc : c.Ints) (r t : List Char) (hr : After r) (ht : skipSpaces t = spellCorner c ++ r) :
    ∃ t', parseIndices np nt nn t = some (c.resolve np nt nn, t') ∧ Next r t' := by
  obtain ⟨h1, h2, h3⟩ := hc
  unfold parseIndices
  rw [ht]
  obtain ⟨p, t?, n?⟩ := c
  simp only at h1 h2 h3
  cases t? with
  | none =>
    cases n? with
    | none =>
      simp only [spellCorner]
      rw [C60_atoi p h1 r hr.head, skipToken_int]
      rcases hr.token with ⟨e, hn⟩ | ⟨c, q, e, hc, hn, _⟩
      · rw [e]; exact ⟨_, rfl, hn⟩
      · rw [e]; exact ⟨q, by simp [hc, Corner.resolve], hn⟩
    | some n =>
      have hn := h3 n rfl
      simp only [spellCorner, List.append_assoc, List.cons_append]
      rw [C60_atoi p h1 _ (slash_head _), skipToken_int, skipToken_slash]
      simp only [Option.bind_eq_bind, Option.bind_some, ne_eq, not_true_eq_false, if_false]
      rw [atoi_slash, skipToken_slash]
      simp only [Option.bind_some, not_true_eq_false, if_false]
      rw [C60_atoi n hn r hr.head, skipToken_int]
      rcases hr.token with ⟨e, hn⟩ | ⟨c, q, e, hc, _, hn⟩
      · rw [e]; exact ⟨_, rfl, hn⟩
      · rw [e]; exact ⟨_, rfl, hn⟩
  | some t1 =>
    have ht1 := h2 t1 rfl
    cases n? with
    | none =>
      simp only [spellCorner, List.append_assoc, List.cons_append]
      rw [C60_atoi p h1 _ (slash_head _), skipToken_int, skipToken_slash]
      simp only [Option.bind_eq_bind, Option.bind_some, ne_eq, not_true_eq_false, if_false]
      rw [C60_atoi t1 ht1 r hr.head, skipToken_int]
      rcases hr.token with ⟨e, hn⟩ | ⟨c, q, e, hc, hn, _⟩
      · rw [e]; exact ⟨_, rfl, hn⟩
      · rw [e]; exact ⟨q, by simp [hc, Corner.resolve], hn⟩
    | some n =>
      have hn := h3 n rfl
      simp only [spellCorner, List.append_assoc, List.cons_append]
      rw [C60_atoi p h1 _ (slash_head _), skipToken_int, skipToken_slash]
      simp only [Option.bind_eq_bind, Option.bind_some, ne_eq, not_true_eq_false, if_false]
      rw [C60_atoi t1 ht1 _ (slash_head _), skipToken_int, skipToken_slash]
      simp only [Option.bind_some, not_true_eq_false, if_false]
      rw [C60_atoi n hn r hr.head, skipToken_int]
      rcases hr.token with ⟨e, hn⟩ | ⟨c, q, e, hc, _, hn⟩
      · rw [e]; exact ⟨_, rfl, hn⟩
      · rw [e]; exact ⟨_, rfl, hn⟩

/-- Each spelling of a corner is read as the vertices it stands for, whatever blanks precede it and whatever ends it. -/
theorem C60_corner (np nt nn : ℕ) (w : List Char) (hw : Blank w) (c : Corner) (hc : c.Ints) (r : List Char) (hr : After r) (i : FaceIndex) (hi : c.StandsFor np nt nn i) :
    ∃ t', parseIndices np nt nn (w ++ spellCorner c ++ r) = some (i, t') := by
  have hs : skipSpaces (w ++ spellCorner c ++ r) = spellCorner c ++ r := by
    rw [List.append_assoc]
    refine (takeWhile_app ws w _ ?_ ?_).2
    · intro d hd
      rcases hw d hd with rfl | rfl <;> decide
    · intro d hd
      have : ∃ q, spellCorner c = spellInt c.p ++ q := by
        unfold spellCorner
        split
        · exact ⟨[], by simp⟩
        · exact ⟨_, rfl⟩
        · exact ⟨_, rfl⟩
        · exact ⟨_, List.append_assoc _ _ _⟩
      obtain ⟨q, e⟩ := this
      rw [e, List.append_assoc] at hd
      obtain ⟨d', q', e', _, h⟩ := spellInt_head c.p (q ++ r)
      rw [e'] at hd
      simp at hd; subst hd; exact h
  obtain ⟨t', e, _⟩ := parse_corner np nt nn c hc r _ hr hs
  refine ⟨t', ?_⟩
  rw [e]
  obtain ⟨⟨k, h1, h2⟩, h3, h4⟩ := hi
  have e1 := ((C60_index _ _ _).mpr h1).1
  congr 2
  unfold Corner.resolve
  obtain ⟨ip, it, inn⟩ := i
  obtain ⟨cp, ct, cn⟩ := c
  simp only at *
  subst h2
  congr 1
  · cases ct with
    | none => exact h3.symm
    | some t =>
      obtain ⟨k, h, e⟩ := h3
      rw [e]; exact ((C60_index _ _ _).mpr h).1
  · cases cn with
    | none => exact h4.symm
    | some t =>
      obtain ⟨k, h, e⟩ := h4
      rw [e]; exact ((C60_index _ _ _).mpr h).1

/-- Concrete case: `  -2//3` with five positions and four normals. -/
example : Corner.StandsFor 5 0 4 ⟨-2, none, some 3⟩ ⟨3, -1, 2⟩ :=
  ⟨⟨3, ⟨by norm_num, by norm_num⟩, rfl⟩, rfl, ⟨2, ⟨by norm_num, by norm_num⟩, rfl⟩⟩
example : parseIndices 5 0 4 "  -2//3 1".toList = some (⟨3, -1, 2⟩, " 1".toList) := by decide +kernel

end LM.Obj
