import Verif.Model.PyConv
import Mathlib.Data.List.Forall2
import Mathlib.Tactic.NormNum
/-
  C96: values arrive in the library as they were given from Python, and the other way around.
-/
namespace LM.PyConv
open LM

variable {F : Type}

/-! ### Specification: what a reader finds at a path into a structure -/

/-- What one sees of a value without looking into its parts. -/
inductive View (F : Type) where
  | null
  | bool (b : Bool)
  | float (x : F)
  | int (n : ℤ)
  | str (s : Str)
  | arr (length : ℕ)
  | obj

/-- A step of a path: a key or an index. -/
abbrev Step := Str ⊕ ℕ

open Classical in
/-- x[step] in Python. -/
noncomputable def Py.item : Py F → Step → Option (Py F)
  | .list l, .inr i => l[i]?
  | .seq l, .inr i => l[i]?
  | .bytes b, .inr i => (b[i]?).map fun (n : Fin 256) => .int (n : ℕ)
  | .dict d, .inl k => (d.find? fun p => decide (p.1 = Key.str k)).map Prod.snd
  | _, _ => Option.none

/-- j[step] of a JSON value. -/
def Js.item : Js F → Step → Option (Js F)
  | .arr a, .inr i => a[i]?
  | .obj o, .inl k => (o.find? fun p => decide (p.1 = k)).map Prod.snd
  | _, _ => Option.none

/-- x[s1][s2]... -/
noncomputable def Py.at (x : Py F) : List Step → Option (Py F)
  | [] => some x
  | s :: p => (x.item s).bind fun y => y.at p

/-- j[s1][s2]... -/
def Js.at (j : Js F) : List Step → Option (Js F)
  | [] => some j
  | s :: p => (j.item s).bind fun y => y.at p

/-- A Python value as a reader of JSON sees it: components are their locators, all sequences but strings are arrays. -/
def Py.view : Py F → Option (View F)
  | .none => some .null
  | .bool b => some (.bool b)
  | .float x => some (.float x)
  | .int n => some (.int n)
  | .str s => some (.str s)
  | .bytes b => some (.arr b.length)
  | .list l => some (.arr l.length)
  | .seq l => some (.arr l.length)
  | .dict _ => some .obj
  | .comp loc => some (.str loc)
  | .bound => Option.none
  | .other => Option.none

/-- The same for JSON values: signed and unsigned numbers are not distinguished. -/
def Js.view : Js F → View F
  | .null => .null
  | .bool b => .bool b
  | .float x => .float x
  | .int n => .int n
  | .uint n => .int n
  | .str s => .str s
  | .arr a => .arr a.length
  | .obj _ => .obj

/-- The two values are the same: at each path there is the same, or nothing in both. -/
def Same (x : Py F) (j : Js F) : Prop := ∀ path, (x.at path).map Py.view = (j.at path).map fun j' => some j'.view

mutual
/-- No dict in x has bytes as keys. -/
def StrKeys : Py F → Prop
  | .dict d => StrKeysItems d
  | .list l => StrKeysSeq l
  | .seq l => StrKeysSeq l
  | _ => True
def StrKeysItems : List (Key × Py F) → Prop
  | [] => True
  | (k, x) :: r => (∀ b, k ≠ .bytes b) ∧ StrKeys x ∧ StrKeysItems r
def StrKeysSeq : List (Py F) → Prop
  | [] => True
  | x :: r => StrKeys x ∧ StrKeysSeq r
end

mutual
/-- x is built from None, booleans, floats, integers of 32 bits, strings, components, sequences, and dicts whose keys are strings. -/
def Convertible : Py F → Prop
  | .int n => IsInt n
  | .dict d => ConvertibleItems d
  | .list l => ConvertibleSeq l
  | .seq l => ConvertibleSeq l
  | .bound => False
  | .other => False
  | _ => True
def ConvertibleItems : List (Key × Py F) → Prop
  | [] => True
  | (k, x) :: r => k ≠ .other ∧ Convertible x ∧ ConvertibleItems r
def ConvertibleSeq : List (Py F) → Prop
  | [] => True
  | x :: r => Convertible x ∧ ConvertibleSeq r
end

mutual
/-- All integers in j have 32 bits. -/
def SmallInts : Js F → Prop
  | .int n => IsInt n
  | .uint n => IsInt n
  | .obj o => SmallIntsItems o
  | .arr a => SmallIntsSeq a
  | _ => True
def SmallIntsItems : List (Str × Js F) → Prop
  | [] => True
  | (_, v) :: r => SmallInts v ∧ SmallIntsItems r
def SmallIntsSeq : List (Js F) → Prop
  | [] => True
  | v :: r => SmallInts v ∧ SmallIntsSeq r
end

/-- The element at an index of a NumPy array, as Python sees it. -/
def NdArray.elem {T : Type} (a : NdArray T) (idx : List ℕ) : Option T :=
  a.mem (a.base + (List.zipWith (fun (i : ℕ) (s : ℤ) => i * s) idx a.strides).sum)

/-- The array has elements at all its indices. -/
def NdArray.Valid {T : Type} (a : NdArray T) : Prop :=
  ∀ idx : List ℕ, List.Forall₂ (fun i n => i < n) idx a.shape → ∃ x, a.elem idx = some x

/-! ### Lemmas -/

theorem same_intro {x : Py F} {j : Js F} (hv : x.view = some j.view)
    (hi : ∀ s, (x.item s = Option.none ∧ j.item s = Option.none) ∨ ∃ x' j', x.item s = some x' ∧ j.item s = some j' ∧ Same x' j') : Same x j := by
  intro path
  cases path with
  | nil => simp [Py.at, Js.at, hv]
  | cons s p =>
    rcases hi s with ⟨h1, h2⟩ | ⟨x', j', h1, h2, h⟩
    · simp [Py.at, Js.at, h1, h2]
    · simpa [Py.at, Js.at, h1, h2] using h p

theorem same_leaf {x : Py F} {j : Js F} (hv : x.view = some j.view) (h1 : ∀ s, x.item s = Option.none) (h2 : ∀ s, j.item s = Option.none) : Same x j :=
  same_intro hv fun s => .inl ⟨h1 s, h2 s⟩

theorem same_seq {x : Py F} {l : List (Py F)} {a : List (Js F)} (hv : x.view = some (.arr l.length)) (hx : ∀ s, x.item s = match s with | .inl _ => Option.none | .inr i => l[i]?) (h : List.Forall₂ Same l a) : Same x (.arr a) := by
  refine same_intro (by rw [hv, Js.view, h.length_eq]) fun s => ?_
  rw [hx]
  cases s with
  | inl k => exact .inl ⟨rfl, rfl⟩
  | inr i =>
    simp only [Js.item]
    by_cases hi : i < l.length
    · have hi' : i < a.length := h.length_eq ▸ hi
      exact .inr ⟨l[i], a[i], by simp [hi], by simp [hi'], h.get hi hi'⟩
    · have hi' : ¬ i < a.length := h.length_eq ▸ hi
      exact .inl ⟨by simp [hi], by simp [hi']⟩

/-- The value at a key of an object. -/
abbrev look (o : List (Str × Js F)) (k : Str) : Option (Js F) := (o.find? fun p => decide (p.1 = k)).map Prod.snd

/-- The keys of the object are in order. -/
def Sorted (o : List (Str × Js F)) : Prop := o.Pairwise fun p q => p.1 < q.1

theorem look_cons (p : Str × Js F) (o : List (Str × Js F)) (k : Str) : look (p :: o) k = if p.1 = k then some p.2 else look o k := by
  by_cases h : p.1 = k <;> simp [look, h]

theorem look_none {o : List (Str × Js F)} {k : Str} (h : ∀ p ∈ o, k < p.1) : look o k = Option.none := by
  simp only [look, Option.map_eq_none_iff, List.find?_eq_none, decide_eq_true_eq]
  exact fun p hp e => absurd (h p hp) (by rw [e]; exact lt_irrefl _)

theorem look_emplace {o : List (Str × Js F)} (ho : Sorted o) (k k' : Str) (v : Js F) :
    look (emplace k v o) k' = if k = k' then (match look o k' with | some w => some w | Option.none => some v) else look o k' := by
  induction o with
  | nil => rw [emplace, look_cons]; rfl
  | cons p o ih =>
    obtain ⟨hp, ho⟩ := List.pairwise_cons.mp ho
    rw [emplace]
    by_cases h1 : k < p.1
    · rw [if_pos h1, look_cons]
      by_cases h2 : k = k'
      · subst h2
        rw [if_pos rfl, if_pos rfl, look_none (fun q hq => ?_)]
        rcases List.mem_cons.mp hq with rfl | hq
        · exact h1
        · exact h1.trans (hp q hq)
      · rw [if_neg h2, if_neg h2]
    · rw [if_neg h1]
      by_cases h3 : k = p.1
      · rw [if_pos h3]
        by_cases h2 : k = k'
        · subst h2
          rw [if_pos rfl, look_cons, if_pos h3.symm]
        · rw [if_neg h2]
      · rw [if_neg h3, look_cons, ih ho, look_cons]
        by_cases h4 : p.1 = k'
        · rw [if_pos h4, if_pos h4]
          rw [if_neg (by rw [← h4]; exact h3)]
        · rw [if_neg h4, if_neg h4]

theorem emplace_mem {o : List (Str × Js F)} {k : Str} {v : Js F} {p : Str × Js F} (h : p ∈ emplace k v o) : p = (k, v) ∨ p ∈ o := by
  induction o with
  | nil => simpa [emplace] using h
  | cons q o ih =>
    rw [emplace] at h
    split at h
    · simpa using h
    · split at h
      · exact .inr h
      · rcases List.mem_cons.mp h with rfl | h
        · exact .inr (List.mem_cons_self ..)
        · rcases ih h with e | e
          · exact .inl e
          · exact .inr (List.mem_cons_of_mem _ e)

theorem emplace_sorted {o : List (Str × Js F)} (ho : Sorted o) (k : Str) (v : Js F) : Sorted (emplace k v o) := by
  induction o with
  | nil => simp [emplace, Sorted]
  | cons q o ih =>
    obtain ⟨hq, ho'⟩ := List.pairwise_cons.mp ho
    rw [emplace]
    split
    · rename_i h1
      refine List.pairwise_cons.mpr ⟨fun p hp => ?_, ho⟩
      rcases List.mem_cons.mp hp with rfl | hp
      · exact h1
      · exact h1.trans (hq p hp)
    · rename_i h1
      split
      · exact ho
      · rename_i h2
        refine List.pairwise_cons.mpr ⟨fun p hp => ?_, ih ho'⟩
        rcases emplace_mem hp with rfl | hp
        · exact lt_of_le_of_ne (not_lt.mp h1) (Ne.symm h2)
        · exact hq p hp

open Classical in
/-- d[k] for the items of a dict. -/
noncomputable abbrev plook (d : List (Key × Py F)) (k : Str) : Option (Py F) := (d.find? fun p => decide (p.1 = Key.str k)).map Prod.snd

theorem plook_cons (p : Key × Py F) (d : List (Key × Py F)) (k : Str) [Decidable (p.1 = Key.str k)] : plook (p :: d) k = if p.1 = Key.str k then some p.2 else plook d k := by
  by_cases h : p.1 = Key.str k <;> simp [plook, h]

theorem same_dict {d : List (Key × Py F)} {o : List (Str × Js F)} (h : ∀ k, (plook d k = Option.none ∧ look o k = Option.none) ∨ ∃ x j, plook d k = some x ∧ look o k = some j ∧ Same x j) : Same (.dict d) (.obj o) := by
  refine same_intro rfl fun s => ?_
  cases s with
  | inl k => exact h k
  | inr i => exact .inl ⟨rfl, rfl⟩

mutual
theorem load_same (debug : Bool) : ∀ (x : Py F) (j : Js F), StrKeys x → load debug x = .ok j → Same x j
  | .none, j, _, h => by obtain rfl := Out.ok.inj h; exact same_leaf rfl (fun s => by cases s <;> rfl) fun s => by cases s <;> rfl
  | .bool b, j, _, h => by obtain rfl := Out.ok.inj h; exact same_leaf rfl (fun s => by cases s <;> rfl) fun s => by cases s <;> rfl
  | .float b, j, _, h => by obtain rfl := Out.ok.inj h; exact same_leaf rfl (fun s => by cases s <;> rfl) fun s => by cases s <;> rfl
  | .int n, j, _, h => by
    rw [load] at h
    split at h
    · obtain rfl := Out.ok.inj h; exact same_leaf rfl (fun s => by cases s <;> rfl) fun s => by cases s <;> rfl
    · cases h
  | .str b, j, _, h => by obtain rfl := Out.ok.inj h; exact same_leaf rfl (fun s => by cases s <;> rfl) fun s => by cases s <;> rfl
  | .bytes b, j, _, h => by
    obtain rfl := Out.ok.inj h
    refine same_seq (l := b.map fun (n : Fin 256) => .int (n : ℕ)) (by simp [Py.view]) (fun s => by cases s <;> simp [Py.item]) ?_
    clear h
    induction b with
    | nil => exact .nil
    | cons n b ih => exact .cons (same_leaf rfl (fun s => by cases s <;> rfl) fun s => by cases s <;> rfl) (ih trivial)
  | .list l, j, hk, h => by
    obtain ⟨a, rfl, ha⟩ := loadSeq_same debug l [] j hk (by rw [load] at h; exact h)
    exact same_seq rfl (fun s => by cases s <;> rfl) ha
  | .seq l, j, hk, h => by
    obtain ⟨a, rfl, ha⟩ := loadSeq_same debug l [] j hk (by rw [load] at h; exact h)
    exact same_seq rfl (fun s => by cases s <;> rfl) ha
  | .dict d, j, hk, h => by
    obtain ⟨o, rfl, _, ho⟩ := loadItems_same debug d [] j hk List.Pairwise.nil (by rw [load] at h; exact h)
    exact same_dict fun k => (ho k).2 rfl
  | .comp b, j, _, h => by obtain rfl := Out.ok.inj h; exact same_leaf rfl (fun s => by cases s <;> rfl) fun s => by cases s <;> rfl
  | .bound, j, _, h => by cases h
  | .other, j, _, h => by rw [load] at h; split at h <;> cases h
theorem loadItems_same (debug : Bool) : ∀ (d : List (Key × Py F)) (acc : List (Str × Js F)) (j : Js F), StrKeysItems d → Sorted acc → loadItems debug acc d = .ok j →
    ∃ o, j = .obj o ∧ Sorted o ∧ ∀ k, (∀ w, look acc k = some w → look o k = some w) ∧
      (look acc k = Option.none → (plook d k = Option.none ∧ look o k = Option.none) ∨ ∃ x j, plook d k = some x ∧ look o k = some j ∧ Same x j)
  | [], acc, j, _, hs, h => by
    obtain rfl := Out.ok.inj h
    exact ⟨acc, rfl, hs, fun k => ⟨fun w hw => hw, fun e => .inl ⟨rfl, e⟩⟩⟩
  | (key, x) :: r, acc, j, hk, hs, h => by
    obtain ⟨hk1, hk2, hk3⟩ := hk
    rw [loadItems] at h
    cases key with
    | other => cases h
    | bytes b => exact absurd rfl (hk1 b)
    | str k0 =>
      simp only [Key.load] at h
      cases hx : load debug x with
      | ok v =>
        simp only [hx] at h
        have hsame := load_same debug x v hk2 hx
        obtain ⟨o, rfl, hso, ho⟩ := loadItems_same debug r (emplace k0 v acc) j hk3 (emplace_sorted hs k0 v) h
        refine ⟨o, rfl, hso, fun k => ⟨fun w hw => (ho k).1 w ?_, fun hn => ?_⟩⟩
        · rw [look_emplace hs, hw]; simp
        · classical
          rw [plook_cons]
          by_cases e : k0 = k
          · subst e
            rw [if_pos rfl]
            exact .inr ⟨x, v, rfl, (ho k0).1 v (by rw [look_emplace hs, hn]; simp), hsame⟩
          · rw [if_neg (fun e' => e (Key.str.inj e'))]
            exact (ho k).2 (by rw [look_emplace hs, if_neg e, hn])
      | reject => simp [hx] at h
      | throw => simp [hx] at h
      | abort => simp [hx] at h
      | undef => simp [hx] at h
theorem loadSeq_same (debug : Bool) : ∀ (l : List (Py F)) (acc : List (Js F)) (j : Js F), StrKeysSeq l → loadSeq debug acc l = .ok j → ∃ a, j = .arr (acc ++ a) ∧ List.Forall₂ Same l a
  | [], acc, j, _, h => by
    obtain rfl := Out.ok.inj h
    exact ⟨[], by simp, .nil⟩
  | x :: r, acc, j, hk, h => by
    rw [loadSeq] at h
    cases hx : load debug x with
    | ok v =>
      simp only [hx] at h
      obtain ⟨a, rfl, ha⟩ := loadSeq_same debug r (acc ++ [v]) j hk.2 h
      exact ⟨v :: a, by simp, .cons (load_same debug x v hk.1 hx) ha⟩
    | reject => simp [hx] at h
    | throw => simp [hx] at h
    | abort => simp [hx] at h
    | undef => simp [hx] at h
end

mutual
theorem load_iff (debug : Bool) : ∀ x : Py F, (∃ j, load debug x = .ok j) ↔ Convertible x
  | .none => ⟨fun _ => trivial, fun _ => ⟨_, rfl⟩⟩
  | .bool b => ⟨fun _ => trivial, fun _ => ⟨_, rfl⟩⟩
  | .float b => ⟨fun _ => trivial, fun _ => ⟨_, rfl⟩⟩
  | .int n => by
    rw [load, Convertible]
    by_cases h : IsInt n <;> simp [h]
  | .str b => ⟨fun _ => trivial, fun _ => ⟨_, rfl⟩⟩
  | .bytes b => ⟨fun _ => trivial, fun _ => ⟨_, rfl⟩⟩
  | .list l => by rw [load, Convertible]; exact loadSeq_iff debug l []
  | .seq l => by rw [load, Convertible]; exact loadSeq_iff debug l []
  | .dict d => by rw [load, Convertible]; exact loadItems_iff debug d []
  | .comp b => ⟨fun _ => trivial, fun _ => ⟨_, rfl⟩⟩
  | .bound => by simp [load, Convertible]
  | .other => by cases debug <;> simp [load, Convertible]
theorem loadItems_iff (debug : Bool) : ∀ (d : List (Key × Py F)) (acc : List (Str × Js F)), (∃ j, loadItems debug acc d = .ok j) ↔ ConvertibleItems d
  | [], acc => ⟨fun _ => trivial, fun _ => ⟨_, rfl⟩⟩
  | (key, x) :: r, acc => by
    rw [loadItems, ConvertibleItems]
    have ih := load_iff debug x
    cases hx : load debug x with
    | ok v =>
      have hc : Convertible x := ih.mp ⟨v, hx⟩
      cases key with
      | other => simp [Key.load]
      | bytes b => simpa [Key.load, hc] using loadItems_iff debug r (emplace b v acc)
      | str b => simpa [Key.load, hc] using loadItems_iff debug r (emplace b v acc)
    | reject => rw [hx] at ih; cases key <;> simp [Key.load] at ih ⊢ <;> intro h <;> exact absurd h ih
    | throw => rw [hx] at ih; cases key <;> simp [Key.load] at ih ⊢ <;> intro h <;> exact absurd h ih
    | abort => rw [hx] at ih; cases key <;> simp [Key.load] at ih ⊢ <;> intro h <;> exact absurd h ih
    | undef => rw [hx] at ih; cases key <;> simp [Key.load] at ih ⊢ <;> intro h <;> exact absurd h ih
theorem loadSeq_iff (debug : Bool) : ∀ (l : List (Py F)) (acc : List (Js F)), (∃ j, loadSeq debug acc l = .ok j) ↔ ConvertibleSeq l
  | [], acc => ⟨fun _ => trivial, fun _ => ⟨_, rfl⟩⟩
  | x :: r, acc => by
    rw [loadSeq, ConvertibleSeq]
    have ih := load_iff debug x
    cases hx : load debug x with
    | ok v =>
      have hc : Convertible x := ih.mp ⟨v, hx⟩
      simpa [hc] using loadSeq_iff debug r (acc ++ [v])
    | reject => rw [hx] at ih; simp at ih ⊢; intro h; exact absurd h ih
    | throw => rw [hx] at ih; simp at ih ⊢; intro h; exact absurd h ih
    | abort => rw [hx] at ih; simp at ih ⊢; intro h; exact absurd h ih
    | undef => rw [hx] at ih; simp at ih ⊢; intro h; exact absurd h ih
end

theorem toInt_small {n : ℤ} (h : IsInt n) : toInt n = n := by
  unfold toInt; obtain ⟨h1, h2⟩ := h; omega

theorem toInt_isInt (n : ℤ) : IsInt (toInt n) := by
  unfold toInt IsInt; omega

mutual
theorem cast_same : ∀ j : Js F, SmallInts j → Same (cast j) j
  | .null, _ => same_leaf rfl (fun s => by cases s <;> rfl) fun s => by cases s <;> rfl
  | .bool b, _ => same_leaf rfl (fun s => by cases s <;> rfl) fun s => by cases s <;> rfl
  | .float b, _ => same_leaf rfl (fun s => by cases s <;> rfl) fun s => by cases s <;> rfl
  | .int n, h => same_leaf (by rw [cast, toInt_small h]; rfl) (fun s => by cases s <;> rfl) fun s => by cases s <;> rfl
  | .uint n, h => same_leaf (by rw [cast, toInt_small h]; rfl) (fun s => by cases s <;> rfl) fun s => by cases s <;> rfl
  | .str b, _ => same_leaf rfl (fun s => by cases s <;> rfl) fun s => by cases s <;> rfl
  | .arr a, h => same_seq (l := castSeq a) rfl (fun s => by cases s <;> rfl) (castSeq_same a h)
  | .obj o, h => same_dict (castItems_same o h)
theorem castItems_same : ∀ o : List (Str × Js F), SmallIntsItems o → ∀ k, (plook (castItems o) k = Option.none ∧ look o k = Option.none) ∨ ∃ x j, plook (castItems o) k = some x ∧ look o k = some j ∧ Same x j
  | [], _, k => .inl ⟨rfl, rfl⟩
  | (k0, v) :: r, h, k => by
    classical
    rw [castItems, plook_cons, look_cons]
    by_cases e : k0 = k
    · subst e
      exact .inr ⟨cast v, v, by simp, by simp, cast_same v h.1⟩
    · rw [if_neg (fun e' => e (Key.str.inj e')), if_neg e]
      exact castItems_same r h.2 k
theorem castSeq_same : ∀ a : List (Js F), SmallIntsSeq a → List.Forall₂ Same (castSeq a) a
  | [], _ => .nil
  | v :: r, h => .cons (cast_same v h.1) (castSeq_same r h.2)
end

mutual
theorem cast_ok : ∀ j : Js F, Convertible (cast j) ∧ StrKeys (cast j)
  | .null => ⟨trivial, trivial⟩
  | .bool _ => ⟨trivial, trivial⟩
  | .float _ => ⟨trivial, trivial⟩
  | .int n => ⟨toInt_isInt n, trivial⟩
  | .uint n => ⟨toInt_isInt n, trivial⟩
  | .str _ => ⟨trivial, trivial⟩
  | .arr a => castSeq_ok a
  | .obj o => castItems_ok o
theorem castItems_ok : ∀ o : List (Str × Js F), ConvertibleItems (castItems o) ∧ StrKeysItems (castItems o)
  | [] => ⟨trivial, trivial⟩
  | (k0, v) :: r => ⟨⟨by simp, (cast_ok v).1, (castItems_ok r).1⟩, by simp, (cast_ok v).2, (castItems_ok r).2⟩
theorem castSeq_ok : ∀ a : List (Js F), ConvertibleSeq (castSeq a) ∧ StrKeysSeq (castSeq a)
  | [] => ⟨trivial, trivial⟩
  | v :: r => ⟨⟨(cast_ok v).1, (castSeq_ok r).1⟩, (cast_ok v).2, (castSeq_ok r).2⟩
end

theorem emplace_small {k : Str} {v : Js F} : ∀ {o : List (Str × Js F)}, SmallInts v → SmallIntsItems o → SmallIntsItems (emplace k v o)
  | [], h, _ => ⟨h, trivial⟩
  | (k', v') :: r, h, ho => by
    rw [emplace]
    split
    · exact ⟨h, ho⟩
    · split
      · exact ho
      · exact ⟨ho.1, emplace_small h ho.2⟩

theorem smallSeq_append {v : Js F} : ∀ {a : List (Js F)}, SmallIntsSeq a → SmallInts v → SmallIntsSeq (a ++ [v])
  | [], _, h => ⟨h, trivial⟩
  | _ :: _, ha, h => ⟨ha.1, smallSeq_append ha.2 h⟩

mutual
theorem load_small (debug : Bool) : ∀ (x : Py F) (j : Js F), load debug x = .ok j → SmallInts j
  | .none, j, h => by obtain rfl := Out.ok.inj h; trivial
  | .bool _, j, h => by obtain rfl := Out.ok.inj h; trivial
  | .float _, j, h => by obtain rfl := Out.ok.inj h; trivial
  | .int n, j, h => by
    rw [load] at h
    split at h
    · rename_i hn; obtain rfl := Out.ok.inj h; exact hn
    · cases h
  | .str _, j, h => by obtain rfl := Out.ok.inj h; trivial
  | .bytes b, j, h => by
    obtain rfl := Out.ok.inj h
    clear h
    rw [SmallInts]
    induction b with
    | nil => trivial
    | cons n b ih => exact ⟨by have := n.isLt; constructor <;> omega, ih⟩
  | .list l, j, h => by rw [load] at h; exact loadSeq_small debug l [] j trivial h
  | .seq l, j, h => by rw [load] at h; exact loadSeq_small debug l [] j trivial h
  | .dict d, j, h => by rw [load] at h; exact loadItems_small debug d [] j trivial h
  | .comp _, j, h => by obtain rfl := Out.ok.inj h; trivial
  | .bound, j, h => by cases h
  | .other, j, h => by rw [load] at h; split at h <;> cases h
theorem loadItems_small (debug : Bool) : ∀ (d : List (Key × Py F)) (acc : List (Str × Js F)) (j : Js F), SmallIntsItems acc → loadItems debug acc d = .ok j → SmallInts j
  | [], acc, j, ha, h => by obtain rfl := Out.ok.inj h; exact ha
  | (key, x) :: r, acc, j, ha, h => by
    rw [loadItems] at h
    cases hk : key.load with
    | none => simp [hk] at h
    | some k =>
      cases hx : load debug x with
      | ok v =>
        simp only [hk, hx] at h
        exact loadItems_small debug r _ j (emplace_small (load_small debug x v hx) ha) h
      | reject => simp [hk, hx] at h
      | throw => simp [hk, hx] at h
      | abort => simp [hk, hx] at h
      | undef => simp [hk, hx] at h
theorem loadSeq_small (debug : Bool) : ∀ (l : List (Py F)) (acc : List (Js F)) (j : Js F), SmallIntsSeq acc → loadSeq debug acc l = .ok j → SmallInts j
  | [], acc, j, ha, h => by obtain rfl := Out.ok.inj h; exact ha
  | x :: r, acc, j, ha, h => by
    rw [loadSeq] at h
    cases hx : load debug x with
    | ok v =>
      simp only [hx] at h
      exact loadSeq_small debug r _ j (smallSeq_append ha (load_small debug x v hx)) h
    | reject => simp [hx] at h
    | throw => simp [hx] at h
    | abort => simp [hx] at h
    | undef => simp [hx] at h
end

/-! ### JSON values -/

/-- C96. A Python value arrives in the library exactly if it is built from None, booleans, floats, integers of 32 bits, strings, components, sequences and dicts whose keys are strings (or bytes). -/
theorem C96_accepted (debug : Bool) (x : Py F) : (∃ j, load debug x = .ok j) ↔ Convertible x := load_iff debug x

/-- C96. What arrives is what was given: at every path into the structure there is the same on both sides (components arrive as their locators), or nothing on both sides. Missing: dicts with bytes as keys, which arrive as if they were strings. -/
theorem C96_arrives_partial (debug : Bool) (x : Py F) (hk : StrKeys x) (j : Js F) (h : load debug x = .ok j) : Same x j := load_same debug x j hk h

/-- C96. What is returned to Python is what the library has, if its integers have 32 bits. Missing: larger integers, see C96_negation_count. -/
theorem C96_returned_partial (j : Js F) (h : SmallInts j) : Same (cast j) j := cast_same j h

theorem castSeq_get : ∀ (a : List (Js F)) (i : ℕ), (castSeq a)[i]? = a[i]?.map cast
  | [], i => by simp [castSeq]
  | v :: r, 0 => by simp [castSeq]
  | v :: r, i + 1 => by simpa [castSeq] using castSeq_get r i

open Classical in
theorem castItems_find : ∀ (o : List (Str × Js F)) (k : Str), ((castItems o).find? fun p => decide (p.1 = Key.str k)).map Prod.snd = ((o.find? fun p => decide (p.1 = k)).map Prod.snd).map cast
  | [], k => by simp [castItems]
  | (k0, v) :: r, k => by
    rw [castItems, List.find?_cons, List.find?_cons]
    by_cases e : k0 = k
    · simp [e]
    · simpa [e] using castItems_find r k

theorem cast_at : ∀ (path : List Step) (j : Js F), (cast j).at path = (j.at path).map cast
  | [], j => rfl
  | s :: p, j => by
    have h : (cast j).item s = (j.item s).map cast := by
      cases j <;> rcases s with k | i <;> simp [cast, Py.item, Js.item, castSeq_get]
      rename_i o
      have h := castItems_find o k
      rw [Option.map_map] at h
      convert h
    rw [Py.at, Js.at, h]
    cases j.item s with
    | none => rfl
    | some y => exact cast_at p y

/-- C96. Arrays are returned as lists and objects as dicts at every place inside a value, so that Python code can modify what it gets and dump it again. -/
theorem C96_containers (j : Js F) (path : List Step) :
    (∀ a, j.at path = some (.arr a) → ∃ l, (cast j).at path = some (.list l) ∧ l.length = a.length) ∧
      ∀ o, j.at path = some (.obj o) → ∃ d, (cast j).at path = some (.dict d) ∧ d.map Prod.fst = o.map fun p => Key.str p.1 := by
  refine ⟨fun a h => ⟨castSeq a, by rw [cast_at, h]; rfl, ?_⟩, fun o h => ⟨castItems o, by rw [cast_at, h]; rfl, ?_⟩⟩
  · clear h; induction a with
    | nil => rfl
    | cons x r ih => simp [castSeq, ih]
  · clear h; induction o with
    | nil => rfl
    | cons x r ih => obtain ⟨k, v⟩ := x; simp [castItems, ih]

/-- The hypotheses are met. -/
example : ((Js.obj [([], .arr [.null])] : Js ℚ).at [.inl []] = some (.arr [.null])) := rfl

/-- C96. A value given from Python, stored, and returned to Python, is what was given. Missing: as in C96_arrives_partial. -/
theorem C96_round_trip_partial (debug : Bool) (x : Py F) (hk : StrKeys x) (j : Js F) (h : load debug x = .ok j) :
    ∀ path, ((cast j).at path).map Py.view = (x.at path).map Py.view := by
  intro path
  rw [cast_same j (load_small debug x j h) path, load_same debug x j hk h path]

/-- C96. A value returned to Python can always be given to the library again, and if its integers have 32 bits then it arrives as it was (up to the distinction between signed and unsigned numbers). -/
theorem C96_back (debug : Bool) (j : Js F) : ∃ j', load debug (cast j) = .ok j' ∧ (SmallInts j → ∀ path, (j'.at path).map Js.view = (j.at path).map Js.view) := by
  obtain ⟨j', hj'⟩ := (load_iff debug (cast j)).mpr (cast_ok j).1
  refine ⟨j', hj', fun h path => ?_⟩
  have h1 := load_same debug _ j' (cast_ok j).2 hj' path
  rw [cast_same j h path] at h1
  have h2 : ((j'.at path).map Js.view).map some = ((j.at path).map Js.view).map some := by
    rw [Option.map_map, Option.map_map]; exact h1.symm
  exact Option.map_injective (Option.some_injective _) h2

/-- C96. A component given as a value arrives as its locator: that is how references to other assets are passed. -/
theorem C96_component (debug : Bool) (d : List (Key × Py F)) (hk : StrKeysItems d) (j : Js F) (h : load debug (.dict d) = .ok j) (k loc : Str) (hd : (Py.dict d).item (.inl k) = some (.comp loc)) :
    (j.item (.inl k)).map Js.view = some (.str loc) := by
  have := load_same debug (.dict d) j hk h [.inl k]
  simp only [Py.at, Js.at, hd, Option.bind_some, Option.map_some, Py.view] at this
  cases hj : j.item (.inl k) with
  | none => simp [hj] at this
  | some v => simpa [hj] using this.symm

/-- C96. Integers of more than 32 bits cannot be given to the library, although it has them (the number of samples per pixel is read as a 64 bit number). -/
theorem C96_negation_large (debug : Bool) (n : ℤ) (h : ¬ IsInt n) : load debug (.int n : Py F) = .throw := by
  rw [load, if_neg h]

/-- C96. Integers of more than 32 bits are returned wrong: the number of samples that rendering an image of 1920 × 1080 pixels with 2000 samples per pixel reports, 4147200000, arrives in Python as a negative number. -/
theorem C96_negation_count : (cast (.obj [("processed".toList, .uint 4147200000)] : Js F)).at [.inl "processed".toList] = some (.int (-147767296)) := by
  simp [cast, castItems, Py.at, Py.item, toInt]

/-- C96. An instance of another bound class (an enumerator, for example) is taken for a component: undefined behaviour. Other objects are rejected, in debug builds by an assertion that ends the program. -/
theorem C96_negation_object (debug : Bool) : load debug (.bound : Py F) = .undef ∧ load true (.other : Py F) = .abort ∧ load false (.other : Py F) = .reject := ⟨rfl, rfl, rfl⟩

/-- The hypotheses are met: {"a": [None, 7], "b": (component,)}. -/
example : ∃ j, load false (.dict [(.str ['b'], .seq [.comp ['$', '.', 'c']]), (.str ['a'], .list [.none, .int 7])] : Py ℚ) = .ok j ∧
    StrKeys (.dict [(.str ['b'], .seq [.comp ['$', '.', 'c']]), (.str ['a'], .list [.none, .int 7])] : Py ℚ) ∧ SmallInts j ∧ (j.at [.inl ['b'], .inr 0]).map Js.view = some (.str ['$', '.', 'c']) ∧
    j = .obj [(['a'], .arr [.null, .int 7]), (['b'], .arr [.str ['$', '.', 'c']])] := by
  have e : load false (.dict [(.str ['b'], .seq [.comp ['$', '.', 'c']]), (.str ['a'], .list [.none, .int 7])] : Py ℚ) = .ok (.obj [(['a'], .arr [.null, .int 7]), (['b'], .arr [.str ['$', '.', 'c']])]) := by
    have h7 : IsInt 7 := by decide
    have hlt : (['a'] : Str) < ['b'] := by decide
    simp [load, loadItems, loadSeq, Key.load, emplace, h7, hlt]
  exact ⟨_, e, by simp [StrKeys, StrKeysItems, StrKeysSeq], load_small _ _ _ e, by simp [Js.at, Js.item, Js.view], rfl⟩

/-! ### Vectors and matrices -/

theorem copy_ok {T : Type} {a : NdArray T} {n : ℕ} (h : ∀ i : Fin n, ∃ x, a.mem (a.base + (i : ℕ)) = some x) : ∃ f, copy a n = .ok f ∧ ∀ i : Fin n, a.mem (a.base + (i : ℕ)) = some (f i) :=
  ⟨_, dif_pos h, fun i => (h i).choose_spec⟩

/-- C96. A contiguous one-dimensional array of n elements of the right type arrives as the vector of its elements. Missing: see C96_negation_short, C96_negation_strided. -/
theorem C96_vector_partial {T : Type} (n : ℕ) (a : NdArray T) (hv : a.Valid) (ht : a.dtype = true) (hs : a.shape = [n]) (hc : a.strides = [1]) :
    ∃ v, loadVec n (.array a) = .ok v ∧ ∀ i : Fin n, a.elem [i] = some (v i) := by
  have key : ∀ i : Fin n, a.elem [(i : ℕ)] = a.mem (a.base + (i : ℕ)) := fun i => by simp [NdArray.elem, hc]
  obtain ⟨v, e, hv'⟩ := copy_ok (a := a) (n := n) fun i => by
    rw [← key]
    exact hv _ (by rw [hs]; exact .cons i.isLt .nil)
  exact ⟨v, by simp [loadVec, ht, hs, e], fun i => by rw [key, hv']⟩

/-- C96. A contiguous array of n × n elements arrives as the matrix with these rows and columns. Missing: see C96_negation_transposed. -/
theorem C96_matrix_partial {T : Type} (n : ℕ) (a : NdArray T) (hv : a.Valid) (ht : a.dtype = true) (hs : a.shape = [n, n]) (hc : a.strides = [(n : ℤ), 1]) :
    ∃ m, loadMat n (.array a) = .ok m ∧ ∀ r c : Fin n, a.elem [r, c] = some (m c r) := by
  have key : ∀ r c : Fin n, a.elem [(r : ℕ), (c : ℕ)] = a.mem (a.base + ((r * n + c : ℕ) : ℤ)) := fun r c => by simp [NdArray.elem, hc]
  obtain ⟨f, e, hf⟩ := copy_ok (a := a) (n := n * n) fun i => by
    have hn : 0 < n := Nat.pos_of_ne_zero fun e => by subst e; exact absurd i.isLt (by simp)
    have h1 := key ⟨i / n, Nat.div_lt_of_lt_mul i.isLt⟩ ⟨i % n, Nat.mod_lt _ hn⟩
    rw [Nat.div_add_mod' (i : ℕ) n] at h1
    rw [← h1]
    exact hv _ (by rw [hs]; exact .cons (Nat.div_lt_of_lt_mul i.isLt) (.cons (Nat.mod_lt _ hn) .nil))
  refine ⟨_, by simp only [loadMat, ht, hs, e]; rfl, fun r c => ?_⟩
  rw [key]
  exact hf ⟨r * n + c, _⟩

/-- C96. A vector is returned to Python as the array of its elements, and arrives as it was when given to the library again. -/
theorem C96_vector_returned {T : Type} {n : ℕ} (v : Fin n → T) : (castVec v).shape = [n] ∧ (∀ i : Fin n, (castVec v).elem [i] = some (v i)) ∧ loadVec n (.array (castVec v)) = .ok v := by
  have h1 : ∀ i : Fin n, (castVec v).elem [i] = some (v i) := fun i => by simp [NdArray.elem, castVec]
  obtain ⟨v', e, h2⟩ := C96_vector_partial n (castVec v) (fun idx h => by
    cases h with
    | cons hi h => cases h; exact ⟨_, h1 ⟨_, hi⟩⟩) rfl rfl rfl
  refine ⟨rfl, h1, ?_⟩
  rw [e]
  congr 1
  funext i
  exact Option.some.inj ((h2 i).symm.trans (h1 i))

/-- C96. A matrix is returned to Python as the array with its rows and columns, and arrives as it was when given to the library again. -/
theorem C96_matrix_returned {T : Type} {n : ℕ} (m : Fin n → Fin n → T) : (castMat m).shape = [n, n] ∧ (∀ r c : Fin n, (castMat m).elem [r, c] = some (m c r)) ∧ loadMat n (.array (castMat m)) = .ok m := by
  have h1 : ∀ r c : Fin n, (castMat m).elem [r, c] = some (m c r) := fun r c => by
    have hlt : (r : ℕ) * n + c < n * n := by
      have h1 : (r : ℕ) * n + n ≤ n * n := by
        have : ((r : ℕ) + 1) * n ≤ n * n := Nat.mul_le_mul_right n r.isLt
        rwa [Nat.add_mul, Nat.one_mul] at this
      have := c.isLt
      omega
    have hn : 0 < n := lt_of_le_of_lt (Nat.zero_le _) r.isLt
    have e1 : ((r : ℕ) * n + c) % n = c := by rw [Nat.add_comm, Nat.add_mul_mod_self_right, Nat.mod_eq_of_lt c.isLt]
    have e2 : ((r : ℕ) * n + c) / n = r := by rw [Nat.add_comm, Nat.add_mul_div_right _ _ hn, Nat.div_eq_of_lt c.isLt, Nat.zero_add]
    have e3 : (castMat m).base + (List.zipWith (fun (i : ℕ) (s : ℤ) => i * s) [(r : ℕ), (c : ℕ)] (castMat m).strides).sum = ((r * n + c : ℕ) : ℤ) := by simp [castMat]
    rw [NdArray.elem, e3]
    have h0 : (0 : ℤ) ≤ ((r * n + c : ℕ) : ℤ) ∧ (((r * n + c : ℕ) : ℤ)).toNat < n * n := ⟨Int.natCast_nonneg _, by rw [Int.toNat_natCast]; exact hlt⟩
    simp only [castMat]
    rw [dif_pos h0]
    simp only [Int.toNat_natCast, e1, e2]
  obtain ⟨m', e, h2⟩ := C96_matrix_partial n (castMat m) (fun idx h => by
    cases h with
    | cons hi h => cases h with
      | cons hj h => cases h; exact ⟨_, h1 ⟨_, hi⟩ ⟨_, hj⟩⟩) rfl rfl rfl
  refine ⟨rfl, h1, ?_⟩
  rw [e]
  congr 1
  funext c r
  exact Option.some.inj ((h2 r c).symm.trans (h1 r c))

/-- C96. Arguments that are no arrays of the right element type and number of dimensions are rejected. -/
theorem C96_rejected {T : Type} (n : ℕ) (a : NdArray T) : loadVec n (.other : Arg T) = .reject ∧ loadMat n (.other : Arg T) = .reject ∧ (a.dtype = false → loadVec n (.array a) = .reject ∧ loadMat n (.array a) = .reject) ∧
    (a.shape.length ≠ 1 → loadVec n (.array a) = .reject) ∧ (a.shape.length ≠ 2 → loadMat n (.array a) = .reject) := by
  refine ⟨rfl, rfl, fun h => ⟨by simp [loadVec, h], by simp [loadMat, h]⟩, fun h => ?_, fun h => ?_⟩
  · simp [loadVec, h]
  · simp [loadMat, h]

/-- C96. The number of elements is not checked: an array that is too short is read beyond its end. -/
theorem C96_negation_short {T : Type} {n k : ℕ} (h : k < n) (v : Fin k → T) : (castVec v).Valid ∧ loadVec n (.array (castVec v)) = .undef := by
  refine ⟨fun idx h => ?_, ?_⟩
  · cases h with
    | cons hi h => cases h; exact ⟨v ⟨_, hi⟩, (C96_vector_returned v).2.1 ⟨_, hi⟩⟩
  · rw [loadVec, if_neg (by simp [castVec]), if_neg (by simp [castVec]), copy, dif_neg]
    intro hh
    obtain ⟨x, hx⟩ := hh ⟨k, h⟩
    simp [castVec] at hx

/-- Every second element of an array of six numbers, a[::2]. -/
def everySecond : NdArray ℕ := ⟨fun i => if 0 ≤ i ∧ i < 6 then some i.toNat else none, 0, [3], [2], true⟩

/-- C96. An array that is not contiguous is read wrong: of a[::2] the first three elements of a arrive. -/
theorem C96_negation_strided : everySecond.Valid ∧ ∃ v, loadVec 3 (.array everySecond) = .ok v ∧ everySecond.elem [1] = some 2 ∧ v 1 = 1 := by
  refine ⟨fun idx h => ?_, ?_⟩
  · cases h with
    | cons hi h =>
      cases h
      rename_i i
      exact ⟨2 * i, by simp [everySecond, NdArray.elem]; omega⟩
  · obtain ⟨v, e, hv⟩ := copy_ok (a := everySecond) (n := 3) fun i => ⟨i, by have := i.isLt; simp [everySecond]; omega⟩
    refine ⟨v, by simp [loadVec, everySecond] at e ⊢; exact e, by simp [everySecond, NdArray.elem], ?_⟩
    have := hv 1
    simp [everySecond] at this
    omega

/-- The transposed view of the array that belongs to a matrix, M.T. -/
def transposedView {T : Type} {n : ℕ} (m : Fin n → Fin n → T) : NdArray T := { castMat m with strides := [1, (n : ℤ)] }

/-- C96. A transposed view M.T arrives as M. -/
theorem C96_negation_transposed {T : Type} {n : ℕ} (m : Fin n → Fin n → T) : (∀ r c : Fin n, (transposedView m).elem [r, c] = some (m r c)) ∧ loadMat n (.array (transposedView m)) = .ok m := by
  obtain ⟨_, h1, h2⟩ := C96_matrix_returned m
  refine ⟨fun r c => ?_, h2⟩
  rw [← h1 c r]
  simp [NdArray.elem, transposedView, castMat]
  ring_nf

end LM.PyConv
