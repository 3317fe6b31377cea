import Verif.Model.Archive
namespace LM.Archive

theorem toLE_length (k x : Nat) : (toLE k x).length = k := by
  induction k generalizing x with
  | zero => rfl
  | succ k ih => simp [toLE, ih]

theorem toMem_length (e : Endian) (k x : Nat) : (toMem e k x).length = k := by
  cases e <;> simp [toMem, toLE_length]

theorem ofLE_toLE (k x : Nat) (h : x < 256 ^ k) : ofLE (toLE k x) = x := by
  induction k generalizing x with
  | zero => have : x = 0 := by simpa using h
            subst this; rfl
  | succ k ih =>
    have hx : x / 256 < 256 ^ k := by
      rw [Nat.div_lt_iff_lt_mul (by decide)]; rw [Nat.pow_succ] at h; exact h
    simp only [toLE, ofLE, ih _ hx]
    omega

theorem decWord_enc (w r : Endian) (swap : Bool) (hs : swap = decide (w ≠ r)) (k x : Nat) (h : x < 256 ^ k) (rest : Bytes) :
    decWord r swap k (toMem w k x ++ rest) = some (x, rest) := by
  unfold decWord
  have hl : ¬ (toMem w k x ++ rest).length < k := by simp [toMem_length]
  rw [if_neg hl]
  have ht : (toMem w k x ++ rest).take k = toMem w k x := by
    rw [List.take_append_of_le_length (by simp [toMem_length])]
    exact List.take_of_length_le (by simp [toMem_length])
  have hd : (toMem w k x ++ rest).drop k = rest := by
    rw [List.drop_append, toMem_length, List.drop_of_length_le (by simp [toMem_length])]
    simp
  simp only [ht, hd]
  subst hs
  cases w <;> cases r <;> simp [toMem, ofMem, ofLE_toLE _ _ h]

theorem decN_enc {α : Type} (d : Bytes → Option (α × Bytes)) (en : α → Bytes) (l : List α) (rest : Bytes)
    (h : ∀ x ∈ l, ∀ rest, d (en x ++ rest) = some (x, rest)) : decN d l.length (l.flatMap en ++ rest) = some (l, rest) := by
  induction l with
  | nil => rfl
  | cons x l ih =>
    simp only [List.length_cons, List.flatMap_cons, List.append_assoc, decN]
    rw [h x (by simp)]
    simp only
    rw [ih (fun y hy => h y (by simp [hy]))]

theorem dec_enc (w r : Endian) (swap : Bool) (hs : swap = decide (w ≠ r)) (t : Ty) (v : t.den) (hv : t.Valid v) (rest : Bytes) :
    dec r swap t (enc w t v ++ rest) = some (v, rest) := by
  induction t generalizing rest with
  | word k => exact decWord_enc w r swap hs k v hv rest
  | arr n t ih =>
    have hv : List.length v = n ∧ ∀ x ∈ (show List t.den from v), t.Valid x := hv
    simp only [dec, enc]
    have := decN_enc (dec r swap t) (enc w t) v rest (fun x hx rest => ih x (hv.2 x hx) rest)
    rw [hv.1] at this
    exact this
  | opt t ih =>
    simp only [dec, enc]
    cases v with
    | none =>
      simp only
      rw [decWord_enc w r swap hs 1 1 (by decide) rest]
      simp
    | some x =>
      simp only [List.append_assoc]
      rw [decWord_enc w r swap hs 1 0 (by decide) (enc w t x ++ rest)]
      simp only [ne_eq, not_true_eq_false, if_false]
      rw [ih x (hv x rfl)]
  | seq t ih =>
    have hv : List.length v < 256 ^ 8 ∧ ∀ x ∈ (show List t.den from v), t.Valid x := hv
    simp only [dec, enc, List.append_assoc]
    rw [decWord_enc w r swap hs 8 _ hv.1]
    exact decN_enc (dec r swap t) (enc w t) v rest (fun x hx rest => ih x (hv.2 x hx) rest)
  | pair t u iht ihu =>
    simp only [dec, enc, List.append_assoc]
    rw [iht v.1 hv.1]
    simp only
    rw [ihu v.2 hv.2]
    rfl

/-- C12. For every kind of value, every value, every writer and reader byte order, and whatever follows in the stream:
    reading back gives the value and leaves exactly what follows. -/
theorem C12_round_trip (w r : Endian) (t : Ty) (v : t.den) (hv : t.Valid v) (rest : Bytes) :
    readFile r t (writeFile w t v ++ rest) = some (v, rest) := by
  cases w with
  | little =>
    simp only [writeFile, header, readFile, List.cons_append, List.nil_append]
    exact dec_enc .little r _ (by cases r <;> rfl) t v hv rest
  | big =>
    simp only [writeFile, header, readFile, List.cons_append, List.nil_append]
    exact dec_enc .big r _ (by cases r <;> rfl) t v hv rest

/-- C12. Hence encodings are prefix free: two values of one kind whose encodings (with anything behind) agree are equal. -/
theorem C12_unambiguous (w : Endian) (t : Ty) (v v' : t.den) (hv : t.Valid v) (hv' : t.Valid v') (rest rest' : Bytes)
    (h : writeFile w t v ++ rest = writeFile w t v' ++ rest') : v = v' ∧ rest = rest' := by
  have h1 := C12_round_trip w w t v hv rest
  rw [h, C12_round_trip w w t v' hv' rest'] at h1
  have := Option.some.inj h1
  exact ⟨(Prod.mk.inj this).1.symm, (Prod.mk.inj this).2.symm⟩

theorem decWord_short (r : Endian) (swap : Bool) (k : Nat) (bs : Bytes) (h : bs.length < k) : decWord r swap k bs = none := by
  simp [decWord, h]

theorem decWord_some (r : Endian) (swap : Bool) (k x : Nat) (bs rest : Bytes) (h : decWord r swap k bs = some (x, rest)) :
    bs.length = k + rest.length := by
  unfold decWord at h
  split at h
  · cases h
  · simp only [Option.some.injEq, Prod.mk.injEq] at h
    rw [← h.2, List.length_drop]; omega

/-- A decoder never uses more than a prefix: what it accepts on a prefix it accepts, with the same value, when more data follows. -/
theorem decWord_append (r : Endian) (swap : Bool) (k x : Nat) (bs rest more : Bytes) (h : decWord r swap k bs = some (x, rest)) :
    decWord r swap k (bs ++ more) = some (x, rest ++ more) := by
  unfold decWord at h ⊢
  split at h
  · cases h
  · next hl =>
    have h2 : ¬ (bs ++ more).length < k := by rw [List.length_append]; omega
    rw [if_neg h2]
    have hle : k ≤ bs.length := by omega
    simp only [Option.some.injEq, Prod.mk.injEq] at h
    simp only
    rw [List.take_append_of_le_length hle, List.drop_append_of_le_length hle, h.1, h.2]

theorem decN_append {α : Type} (d : Bytes → Option (α × Bytes))
    (hd : ∀ x bs rest more, d bs = some (x, rest) → d (bs ++ more) = some (x, rest ++ more)) (n : Nat) (l : List α) (bs rest more : Bytes)
    (h : decN d n bs = some (l, rest)) : decN d n (bs ++ more) = some (l, rest ++ more) := by
  induction n generalizing l bs with
  | zero => simp only [decN, Option.some.injEq, Prod.mk.injEq] at h ⊢; simp [h.1, h.2]
  | succ n ih =>
    simp only [decN] at h ⊢
    cases h1 : d bs with
    | none => rw [h1] at h; cases h
    | some p =>
      rw [h1] at h
      rw [hd p.1 bs p.2 more h1]
      simp only at h ⊢
      cases h2 : decN d n p.2 with
      | none => rw [h2] at h; cases h
      | some q =>
        rw [h2] at h
        rw [ih q.1 p.2 (by rw [h2]; simp only [Option.some.injEq, Prod.mk.injEq] at h; simp [← h.2])]
        simp only [Option.some.injEq, Prod.mk.injEq] at h ⊢
        exact ⟨h.1, trivial⟩

theorem dec_append (r : Endian) (swap : Bool) (t : Ty) (v : t.den) (bs rest more : Bytes) (h : dec r swap t bs = some (v, rest)) :
    dec r swap t (bs ++ more) = some (v, rest ++ more) := by
  induction t generalizing bs rest more with
  | word k => exact decWord_append r swap k v bs rest more h
  | arr n t ih => exact decN_append (dec r swap t) (fun x bs rest more' h => ih x bs rest more' h) n v bs rest more h
  | opt t ih =>
    simp only [dec] at h ⊢
    cases h1 : decWord r swap 1 bs with
    | none => rw [h1] at h; cases h
    | some p =>
      rw [h1] at h
      rw [decWord_append r swap 1 p.1 bs p.2 more h1]
      simp only at h ⊢
      split at h
      · next hf => rw [if_pos hf]; cases h; rfl
      · next hf =>
        rw [if_neg hf]
        cases h2 : dec r swap t p.2 with
        | none => rw [h2] at h; cases h
        | some q =>
          rw [h2] at h
          rw [ih q.1 p.2 q.2 more h2]
          cases h; rfl
  | seq t ih =>
    simp only [dec] at h ⊢
    cases h1 : decWord r swap 8 bs with
    | none => rw [h1] at h; cases h
    | some p =>
      rw [h1] at h
      rw [decWord_append r swap 8 p.1 bs p.2 more h1]
      exact decN_append (dec r swap t) (fun x bs rest more' h => ih x bs rest more' h) p.1 v p.2 rest more h
  | pair t u iht ihu =>
    simp only [dec] at h ⊢
    cases h1 : dec r swap t bs with
    | none => rw [h1] at h; cases h
    | some p =>
      rw [h1] at h
      rw [iht p.1 bs p.2 more h1]
      simp only at h ⊢
      cases h2 : dec r swap u p.2 with
      | none => rw [h2] at h; cases h
      | some q =>
        rw [h2] at h
        rw [ihu q.1 p.2 q.2 more h2]
        cases h; rfl

theorem readFile_append (r : Endian) (t : Ty) (v : t.den) (bs rest more : Bytes) (h : readFile r t bs = some (v, rest)) :
    readFile r t (bs ++ more) = some (v, rest ++ more) := by
  cases bs with
  | nil => cases h
  | cons b bs => exact dec_append r _ t v bs rest more h

/-- C12. A truncated file is rejected: no proper prefix of a saved file can be read. -/
theorem C12_truncated_rejected (w r : Endian) (t : Ty) (v : t.den) (hv : t.Valid v) (p q : Bytes) (hq : q ≠ []) (h : writeFile w t v = p ++ q) :
    readFile r t p = none := by
  cases hp : readFile r t p with
  | none => rfl
  | some x =>
    have h1 := readFile_append r t x.1 p x.2 q hp
    have h2 := C12_round_trip w r t v hv []
    rw [List.append_nil, h, h1] at h2
    have := (Prod.mk.inj (Option.some.inj h2)).2
    exact absurd (List.append_eq_nil_iff.mp this).2 hq

/-- C12. Every byte written is a byte. -/
theorem toLE_bytes (k x : Nat) : ∀ b ∈ toLE k x, b < 256 := by
  induction k generalizing x with
  | zero => intro b hb; cases hb
  | succ k ih =>
    intro b hb
    simp only [toLE, List.mem_cons] at hb
    rcases hb with rfl | hb
    · omega
    · exact ih _ b hb

theorem mem_toMem (w : Endian) (k x b : Nat) (h : b ∈ toMem w k x) : b < 256 := by
  cases w
  · exact toLE_bytes k x b h
  · exact toLE_bytes k x b (List.mem_reverse.mp h)

theorem enc_bytes (w : Endian) (t : Ty) (v : t.den) : ∀ b ∈ enc w t v, b < 256 := by
  induction t with
  | word k => exact fun b hb => mem_toMem w k v b hb
  | arr n t ih =>
    intro b hb
    have hb : b ∈ List.flatMap (enc w t) (show List t.den from v) := hb
    obtain ⟨x, _, hx⟩ := List.mem_flatMap.mp hb
    exact ih x b hx
  | opt t ih =>
    intro b hb
    cases v with
    | none => exact mem_toMem w 1 1 b hb
    | some x =>
      rcases List.mem_append.mp hb with h | h
      · exact mem_toMem w 1 0 b h
      · exact ih x b h
  | seq t ih =>
    intro b hb
    rcases List.mem_append.mp hb with h | h
    · exact mem_toMem w 8 _ b h
    · obtain ⟨x, _, hx⟩ := List.mem_flatMap.mp h
      exact ih x b hx
  | pair t u iht ihu =>
    intro b hb
    rcases List.mem_append.mp hb with h | h
    · exact iht _ b h
    · exact ihu _ b h

/-- C12. Everything written is a byte string. -/
theorem C12_bytes (w : Endian) (t : Ty) (v : t.den) : ∀ b ∈ writeFile w t v, b < 256 := by
  intro b hb
  rcases List.mem_append.mp hb with h | h
  · cases w <;> simp [header] at h <;> omega
  · exact enc_bytes w t v b h

theorem mapOfPairs_find {K V : Type} [DecidableEq K] (l : List (K × V)) (m : AMap K V) (k : K) (hk : (l.map Prod.fst).Nodup) :
    (l.foldl (fun m e => m.insert e.1 e.2) m).find? k = match l.find? (fun e => decide (e.1 = k)) with
      | some e => some e.2 | none => m.find? k := by
  induction l generalizing m with
  | nil => rfl
  | cons e l ih =>
    simp only [List.map_cons, List.nodup_cons] at hk
    rw [List.foldl_cons, ih _ hk.2]
    by_cases he : e.1 = k
    · have hn : l.find? (fun e => decide (e.1 = k)) = none := by
        rw [List.find?_eq_none]
        intro x hx hxk
        exact hk.1 (by rw [he]; exact List.mem_map.mpr ⟨x, hx, by simpa using hxk⟩)
      rw [hn]
      simp [List.find?_cons, he, AMap.find?_insert]
    · have he' : k ≠ e.1 := fun h => he h.symm
      simp [List.find?_cons, he, AMap.find?_insert, he']

/-- C12. A map saved in any iteration order `l` (an arbitrary enumeration of the map `f` without repeated keys) is read back as the same map. -/
theorem C12_map_round_trip (w r : Endian) (tk tv : Ty) [DecidableEq tk.den] (f : tk.den → Option tv.den) (l : List (tk.den × tv.den))
    (hnd : (l.map Prod.fst).Nodup) (hl : ∀ k v, (k, v) ∈ l ↔ f k = some v) (hv : (Ty.seq (.pair tk tv)).Valid l) (rest : Bytes) :
    ∃ l', readFile r (.seq (.pair tk tv)) (writeFile w (.seq (.pair tk tv)) l ++ rest) = some (l', rest) ∧
      ∀ k, (mapOfPairs (K := tk.den) (V := tv.den) l').find? k = f k := by
  refine ⟨l, C12_round_trip w r (.seq (.pair tk tv)) l hv rest, fun k => ?_⟩
  unfold mapOfPairs
  rw [mapOfPairs_find l [] k hnd]
  cases hf : l.find? (fun e => decide (e.1 = k)) with
  | some e =>
    have h1 := List.mem_of_find?_eq_some hf
    have h2 := List.find?_some hf
    simp only [decide_eq_true_eq] at h2
    subst h2
    exact ((hl e.1 e.2).mp h1).symm
  | none =>
    cases hk : f k with
    | none => rfl
    | some v =>
      have := (hl k v).mpr hk
      rw [List.find?_eq_none] at hf
      exact absurd (by simp) (hf _ this)

/-- Non-vacuity: an optional 2x2 matrix of 8-byte words, written on a big-endian machine, read on a little-endian one. -/
def exTy : Ty := .opt (.arr 2 (.arr 2 (.word 8)))
def exVal : exTy.den := (some [[1, 2], [3, 2 ^ 63]] : Option (List (List Nat)))

theorem exVal_valid : exTy.Valid exVal := by
  intro x hx
  have hx : some [[1, 2], [3, 2 ^ 63]] = some (show List (List Nat) from x) := hx
  have hx : [[1, 2], [3, 2 ^ 63]] = (show List (List Nat) from x) := Option.some.inj hx
  subst hx
  have : ([[1, 2], [3, 2 ^ 63]] : List (List Nat)).length = 2 ∧
    ∀ y ∈ ([[1, 2], [3, 2 ^ 63]] : List (List Nat)), y.length = 2 ∧ ∀ z ∈ y, z < 256 ^ 8 := by decide
  exact this

example : readFile .little exTy (writeFile .big exTy exVal ++ [9]) = some (exVal, [9]) :=
  C12_round_trip .big .little exTy exVal exVal_valid [9]

/-- The example really needs byte swapping: the two machines write different bytes. -/
example : writeFile .big exTy exVal ≠ writeFile .little exTy exVal := by decide

end LM.Archive
