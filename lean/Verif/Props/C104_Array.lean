import Verif.Model.FilmView
import Mathlib.Data.List.Basic
import Mathlib.Data.Rat.Defs
import Mathlib.Tactic.Linarith
/-
  C104: the image array handed to Python shows the film it was taken from.
-/
namespace LM.FilmView
open LM.Film

variable {K : Type}

/-- The components of a list of colours, one after the other. -/
def flat (vs : List (V3 K)) : List (Option K) := vs.flatMap (fun v => [some v.x, some v.y, some v.z])

theorem flat_length (vs : List (V3 K)) : (flat vs).length = 3 * vs.length := by
  induction vs with
  | nil => rfl
  | cons v vs ih => simp only [flat, List.flatMap_cons, List.length_append, List.length_cons, List.length_nil] at *; omega

theorem flat_get (vs : List (V3 K)) : ∀ k c, c < 3 → (flat vs)[3 * k + c]? = (vs[k]?).map (fun v => some (chan v c)) := by
  induction vs with
  | nil => intro k c _; simp [flat]
  | cons v vs ih =>
    intro k c hc
    cases k with
    | zero => match c, hc with
      | 0, _ => rfl
      | 1, _ => rfl
      | 2, _ => rfl
    | succ k =>
      rw [show 3 * (k + 1) + c = (3 * k + c) + 3 by omega]
      simp only [flat, List.flatMap_cons, List.cons_append, List.nil_append, List.getElem?_cons_succ]
      exact ih k c hc

theorem flat_append (vs : List (V3 K)) (v : V3 K) : flat (vs ++ [v]) = flat vs ++ [some v.x, some v.y, some v.z] := by
  simp [flat]

theorem put_length (cells : List (Option K)) (i : Nat) (v : V3 K) : (put cells i v).length = cells.length := by simp [put]

/-- Writing behind a prefix appends to it. -/
theorem put_take (cells : List (Option K)) (i : Nat) (v : V3 K) (h : 3 * i + 3 ≤ cells.length) :
    (put cells i v).take (3 * (i + 1)) = cells.take (3 * i) ++ [some v.x, some v.y, some v.z] := by
  apply List.ext_getElem?
  intro j
  have hl : (cells.take (3 * i)).length = 3 * i := by rw [List.length_take]; omega
  by_cases hj : j < 3 * i
  · rw [List.getElem?_take_of_lt (by omega), List.getElem?_append_left (by omega), List.getElem?_take_of_lt hj]
    simp only [put]
    rw [List.getElem?_set_ne (by omega), List.getElem?_set_ne (by omega), List.getElem?_set_ne (by omega)]
  · rw [List.getElem?_append_right (by omega), hl]
    by_cases hj3 : j < 3 * (i + 1)
    · rw [List.getElem?_take_of_lt hj3]
      simp only [put]
      obtain rfl | rfl | rfl : j = 3 * i ∨ j = 3 * i + 1 ∨ j = 3 * i + 2 := by omega
      · rw [List.getElem?_set_ne (by omega), List.getElem?_set_ne (by omega), List.getElem?_set_self (by omega)]; simp
      · rw [List.getElem?_set_ne (by omega), List.getElem?_set_self (by simp; omega)]
        rw [show 3 * i + 1 - 3 * i = 1 by omega]; rfl
      · rw [List.getElem?_set_self (by simp; omega)]
        rw [show 3 * i + 2 - 3 * i = 2 by omega]; rfl
    · rw [List.getElem?_eq_none (by rw [List.length_take]; omega), List.getElem?_eq_none]
      simp only [List.length_cons, List.length_nil]; omega

theorem put_some (cells : List (Option K)) (i : Nat) (v : V3 K) (j : Nat) (h : ∃ a, cells[j]? = some (some a)) : ∃ a, (put cells i v)[j]? = some (some a) := by
  obtain ⟨a, ha⟩ := h
  have hj : j < cells.length := by
    by_contra hc
    rw [List.getElem?_eq_none (by omega)] at ha; cases ha
  simp only [put]
  by_cases h2 : 3 * i + 2 = j
  · exact ⟨v.z, by subst h2; rw [List.getElem?_set_self (by simpa using hj)]⟩
  · rw [List.getElem?_set_ne h2]
    by_cases h1 : 3 * i + 1 = j
    · exact ⟨v.y, by subst h1; rw [List.getElem?_set_self (by simpa using hj)]⟩
    · rw [List.getElem?_set_ne h1]
      by_cases h0 : 3 * i = j
      · exact ⟨v.x, by subst h0; rw [List.getElem?_set_self hj]⟩
      · rw [List.getElem?_set_ne h0]; exact ⟨a, ha⟩

/-- The memory a vector owns. -/
def Owned (t : Temp) (m : Heap K) (cells : List (Option K)) : Prop :=
  cells.length = 3 * t.cap ∧ ((t.block = none ∧ cells = []) ∨ ∃ b, t.block = some b ∧ m.block b = some cells)

/-- Memory that has not been handed out is not in use. -/
def Fresh (m : Heap K) : Prop := ∀ b, m.next ≤ b → m.block b = none

/-- What a number of push_backs into a cleared vector leaves. -/
structure Pushed (t0 : Temp) (m0 : Heap K) (vs : List (V3 K)) (t : Temp) (m : Heap K) : Prop where
  len : t.len = vs.length
  fits : t.len ≤ t.cap
  cap : t0.cap ≤ t.cap
  own : ∃ cells : List (Option K), Owned t m cells ∧ cells.take (3 * t.len) = flat vs ∧
    (t.block = t0.block → ∀ cells0 : List (Option K), Owned t0 m0 cells0 → ∀ j : Nat, (∃ a, cells0[j]? = some (some a)) → ∃ a, cells[j]? = some (some a))
  fresh : Fresh m
  next : m0.next ≤ m.next
  place : (t.block = t0.block ∧ t.cap = t0.cap ∧ vs.length ≤ t0.cap) ∨
    ((∃ b, t.block = some b ∧ m0.next ≤ b ∧ b < m.next) ∧ t0.cap < vs.length ∧ ∀ b, t0.block = some b → m.block b = none)
  others : ∀ b, b < m0.next → t0.block ≠ some b → m.block b = m0.block b

theorem setF_self {α : Type} (f : Nat → α) (i : Nat) (x : α) : setF f i x i = x := by simp [setF]
theorem setF_ne {α : Type} (f : Nat → α) (i j : Nat) (x : α) (h : j ≠ i) : setF f i x j = f j := by simp [setF, h]

/-- Memory given back. -/
theorem free_block (t : Temp) (m : Heap K) (b : Nat) : (free t m).block b = if t.block = some b then none else m.block b := by
  unfold free
  cases h : t.block with
  | none => simp
  | some b' =>
    by_cases h' : b = b'
    · subst h'; simp [setF]
    · simp [setF, h', Ne.symm h']

theorem Pushed.start (t : Temp) (m : Heap K) (cells : List (Option K)) (ho : Owned t m cells) (hf : Fresh m) :
    Pushed t m [] { t with len := 0 } m where
  len := rfl
  fits := Nat.zero_le _
  cap := Nat.le_refl _
  own := by
    refine ⟨cells, ⟨ho.1, ho.2⟩, by simp [flat], ?_⟩
    intro _ cells0 h0 j hj
    have : cells0 = cells := by
      rcases ho.2 with ⟨h1, rfl⟩ | ⟨b, h1, h2⟩
      · rcases h0.2 with ⟨_, rfl⟩ | ⟨b, h3, _⟩
        · rfl
        · rw [h1] at h3; cases h3
      · rcases h0.2 with ⟨h3, _⟩ | ⟨b', h3, h4⟩
        · rw [h1] at h3; cases h3
        · rw [h1] at h3; cases h3; rw [h2] at h4; cases h4; rfl
    exact this ▸ hj
  fresh := hf
  next := Nat.le_refl _
  place := Or.inl ⟨rfl, rfl, Nat.zero_le _⟩
  others := fun _ _ _ => rfl

theorem Pushed.push (grow : Nat → Nat) (hg : ∀ n, n < grow n) {t0 : Temp} {m0 : Heap K} {vs : List (V3 K)} {t : Temp} {m : Heap K}
    (hb0 : ∀ b, t0.block = some b → b < m0.next) (h : Pushed t0 m0 vs t m) (v : V3 K) :
    ∃ t' m', push grow (t, m) v = some (t', m') ∧ Pushed t0 m0 (vs ++ [v]) t' m' := by
  obtain ⟨cells, ho, htake, hinit⟩ := h.own
  have hlen := h.len
  have hfits := h.fits
  by_cases hc : t.len < t.cap
  · -- there is room
    rcases ho.2 with ⟨_, hnil⟩ | ⟨b, hb, hm⟩
    · have h1 := ho.1
      rw [hnil] at h1; simp only [List.length_nil] at h1; omega
    have hbn : b < m.next := by
      by_contra hx
      rw [h.fresh b (by omega)] at hm; cases hm
    refine ⟨{ t with len := t.len + 1 }, { m with block := setF m.block b (some (put cells t.len v)) }, by simp [FilmView.push, hc, hb, hm], ?_⟩
    refine ⟨by simp [hlen], by show t.len + 1 ≤ t.cap; omega, h.cap, ?_, ?_, h.next, ?_, ?_⟩
    · refine ⟨put cells t.len v, ⟨by rw [put_length]; exact ho.1, Or.inr ⟨b, hb, setF_self _ _ _⟩⟩, ?_, ?_⟩
      · show (put cells t.len v).take (3 * (t.len + 1)) = _
        rw [put_take _ _ _ (by rw [ho.1]; omega), htake, flat_append]
      · intro hbl cells0 h0 j hj
        exact put_some _ _ _ _ (hinit hbl cells0 h0 j hj)
    · intro b' hb'
      have hb' : m.next ≤ b' := hb'
      show setF m.block b _ b' = none
      rw [setF_ne _ _ _ _ (by omega)]; exact h.fresh b' hb'
    · rcases h.place with ⟨h1, h2, h3⟩ | ⟨⟨b', h1, h2, h2'⟩, h3, h4⟩
      · exact Or.inl ⟨h1, h2, by simp only [List.length_append, List.length_cons, List.length_nil]; omega⟩
      · refine Or.inr ⟨⟨b', h1, h2, h2'⟩, by simp only [List.length_append, List.length_cons, List.length_nil]; omega, ?_⟩
        intro c hcb
        have : c < m0.next := hb0 c hcb
        show setF m.block b _ c = none
        rw [hb] at h1; cases h1
        rw [setF_ne _ _ _ _ (by omega)]; exact h4 c hcb
    · intro b' hb' hne
      show setF m.block b _ b' = _
      have : b' ≠ b := by
        rintro rfl
        rcases h.place with ⟨h1, _⟩ | ⟨⟨b'', h1, h2, _⟩, _⟩
        · exact hne (h1 ▸ hb)
        · rw [hb] at h1; cases h1; omega
      rw [setF_ne _ _ _ _ this]; exact h.others b' hb' hne
  · -- a larger block
    have hcap : t.len = t.cap := by omega
    have hold : owned t m = some cells := by
      unfold owned
      rcases ho.2 with ⟨h1, h2⟩ | ⟨b, h1, h2⟩
      · rw [h1, h2]
      · rw [h1]; exact h2
    have hgl := hg t.len
    have hcl : cells.length = 3 * t.len := by rw [ho.1, hcap]
    refine ⟨_, _, by simp only [FilmView.push, if_neg hc, hold]; rfl, ?_⟩
    have hnn : ∀ b, t.block = some b → b < m.next := by
      intro b hb
      rcases ho.2 with ⟨h1, _⟩ | ⟨b', h1, h2⟩
      · rw [h1] at hb; cases hb
      · rw [hb] at h1; cases h1
        by_contra hx
        rw [h.fresh b (by omega)] at h2; cases h2
    have hfreed := free_block t m
    refine ⟨by simp [hlen], ?_, ?_, ?_, ?_, by show m0.next ≤ m.next + 1; exact le_trans h.next (Nat.le_succ _), ?_, ?_⟩
    · show t.len + 1 ≤ grow t.len; omega
    · show t0.cap ≤ grow t.len; have := h.cap; omega
    · refine ⟨put (cells.take (3 * t.len) ++ List.replicate (3 * (grow t.len - t.len)) none) t.len v, ⟨?_, Or.inr ⟨m.next, rfl, setF_self _ _ _⟩⟩, ?_, ?_⟩
      · rw [put_length]; simp only [List.length_append, List.length_take, List.length_replicate, hcl, Nat.min_self]
        show _ = 3 * grow t.len
        omega
      · show List.take (3 * (t.len + 1)) _ = _
        rw [put_take _ _ _ (by simp only [List.length_append, List.length_take, List.length_replicate, hcl, Nat.min_self]; omega), List.take_append,
          List.length_take, hcl, Nat.min_self, Nat.sub_self, List.take_zero, List.append_nil, List.take_take, Nat.min_self, htake, flat_append]
      · intro hbl
        exfalso
        have hbl : some m.next = t0.block := hbl
        have := hb0 _ hbl.symm
        have := h.next
        omega
    · intro b' hb'
      have hb' : m.next + 1 ≤ b' := hb'
      show setF _ m.next _ b' = none
      rw [setF_ne _ _ _ _ (by omega), hfreed]
      split
      · rfl
      · exact h.fresh b' (by omega)
    · refine Or.inr ⟨⟨m.next, rfl, h.next, Nat.lt_succ_self _⟩, ?_, ?_⟩
      · simp only [List.length_append, List.length_cons, List.length_nil]
        have := h.cap
        omega
      · intro b hb
        have h1 := hb0 b hb
        have h2 := h.next
        show setF _ m.next _ b = none
        rw [setF_ne _ _ _ _ (by omega), hfreed]
        rcases h.place with ⟨h3, _⟩ | ⟨_, _, h3⟩
        · rw [h3, if_pos hb]
        · split
          · rfl
          · exact h3 b hb
    · intro b' hb' hne
      have h2 := h.next
      show setF _ m.next _ b' = _
      rw [setF_ne _ _ _ _ (by omega), hfreed, if_neg]
      · exact h.others b' hb' hne
      · intro hx
        rcases h.place with ⟨h1, _⟩ | ⟨⟨b'', h1, h2, _⟩, _⟩
        · exact hne (h1 ▸ hx)
        · rw [hx] at h1; cases h1; omega

theorem pushAll (grow : Nat → Nat) (hg : ∀ n, n < grow n) {t0 : Temp} {m0 : Heap K} (hb0 : ∀ b, t0.block = some b → b < m0.next) :
    ∀ (ws vs : List (V3 K)) (t : Temp) (m : Heap K), Pushed t0 m0 vs t m →
      ∃ t' m', ws.foldlM (push grow) (t, m) = some (t', m') ∧ Pushed t0 m0 (vs ++ ws) t' m'
  | [], vs, t, m, h => ⟨t, m, rfl, by simpa using h⟩
  | w :: ws, vs, t, m, h => by
    obtain ⟨t1, m1, e1, h1⟩ := Pushed.push grow hg hb0 h w
    obtain ⟨t2, m2, e2, h2⟩ := pushAll grow hg hb0 ws (vs ++ [w]) t1 m1 h1
    exact ⟨t2, m2, by rw [List.foldlM_cons, e1]; exact e2, by simpa using h2⟩

/-! ### What holds in every reachable state -/

/-- The memory of the films: every film owns its block, no two films share one, and what is not handed out is free. -/
structure Inv (s : World K) : Prop where
  own : ∀ f o, s.film f = some o → ∃ cells, Owned o.temp s.heap cells
  sep : ∀ f g o o' b, s.film f = some o → s.film g = some o' → o.temp.block = some b → o'.temp.block = some b → f = g
  fresh : Fresh s.heap

theorem Inv.below {s : World K} (h : Inv s) {f : Nat} {o : Film K} (hf : s.film f = some o) {b : Nat} (hb : o.temp.block = some b) : b < s.heap.next := by
  obtain ⟨cells, _, h1⟩ := h.own f o hf
  rcases h1 with ⟨h1, _⟩ | ⟨b', h1, h2⟩
  · rw [h1] at hb; cases hb
  · rw [hb] at h1; cases h1
    by_contra hx
    rw [h.fresh b (by omega)] at h2; cases h2

theorem Inv.init : Inv (FilmView.init K) where
  own := fun _ _ h => by cases h
  sep := fun _ _ _ _ _ h _ _ _ => by cases h
  fresh := fun _ _ => rfl

/-- buffer() in terms of the push_backs. -/
theorem bufferFilm_spec (grow : Nat → Nat) (hg : ∀ n, n < grow n) {s : World K} (hi : Inv s) {f : Nat} {o : Film K} (hf : s.film f = some o) :
    ∃ t m, Pushed o.temp s.heap o.bmp.data t m ∧
      bufferFilm grow o s.heap = (if o.bmp.data = [] then none else t.block.map (fun b => (⟨o.bmp.w, o.bmp.h, b⟩, { o with temp := t }, m))) ∧
      (o.bmp.data ≠ [] → ∃ b, t.block = some b) := by
  obtain ⟨cells, ho⟩ := hi.own f o hf
  obtain ⟨t, m, e, h⟩ := pushAll grow hg (fun b hb => hi.below hf hb) o.bmp.data [] _ _ (Pushed.start o.temp s.heap cells ho hi.fresh)
  rw [List.nil_append] at h
  have hb : o.bmp.data ≠ [] → ∃ b, t.block = some b := by
    intro hne
    obtain ⟨cells, ho, _⟩ := h.own
    rcases ho.2 with ⟨h1, h2⟩ | ⟨b, h1, _⟩
    · exfalso
      have h3 := ho.1
      rw [h2] at h3
      simp only [List.length_nil] at h3
      have h4 := h.fits
      rw [h.len] at h4
      have : 0 < o.bmp.data.length := List.length_pos_iff.mpr hne
      omega
    · exact ⟨b, h1⟩
  refine ⟨t, m, h, ?_, hb⟩
  unfold bufferFilm
  rw [e]
  by_cases hd : o.bmp.data = []
  · have : t.len = 0 := by rw [h.len, hd]; rfl
    simp [this, hd]
  · have : t.len ≠ 0 := by rw [h.len]; exact fun hx => hd (List.length_eq_zero_iff.mp hx)
    obtain ⟨b, hb⟩ := hb hd
    simp [this, hd, hb]

/-- The state after buffer(). -/
theorem take_spec (grow : Nat → Nat) (hg : ∀ n, n < grow n) {s : World K} (hi : Inv s) {f : Nat} {v : View} {s' : World K} (h : take grow s f = some (v, s')) :
    ∃ o t, s.film f = some o ∧ Pushed o.temp s.heap o.bmp.data t s'.heap ∧ t.block = some v.block ∧ v.w = o.bmp.w ∧ v.h = o.bmp.h ∧ o.bmp.data ≠ [] ∧
      s'.film = setF s.film f (some { o with temp := t }) := by
  unfold take at h
  cases hf : s.film f with
  | none => rw [hf] at h; cases h
  | some o =>
    obtain ⟨t, m, hp, he, hb⟩ := bufferFilm_spec grow hg hi hf
    rw [hf] at h
    simp only [Option.bind_eq_bind, Option.bind_some] at h
    rw [he] at h
    by_cases hd : o.bmp.data = []
    · rw [if_pos hd] at h; cases h
    · rw [if_neg hd] at h
      obtain ⟨b, hb⟩ := hb hd
      rw [hb] at h
      simp only [Option.map_some, Option.bind_some, Option.some.injEq, Prod.mk.injEq] at h
      obtain ⟨rfl, rfl⟩ := h
      exact ⟨o, t, rfl, hp, hb, rfl, rfl, hd, rfl⟩

/-- A film that keeps its memory while other memory changes. -/
theorem Owned.frame {t : Temp} {m m' : Heap K} {cells : List (Option K)} (h : Owned t m cells) (he : ∀ b, t.block = some b → m'.block b = m.block b) : Owned t m' cells :=
  ⟨h.1, h.2.imp id (fun ⟨b, h1, h2⟩ => ⟨b, h1, by rw [he b h1]; exact h2⟩)⟩

theorem Inv.take {grow : Nat → Nat} (hg : ∀ n, n < grow n) {s : World K} (hi : Inv s) {f : Nat} {v : View} {s' : World K} (h : FilmView.take grow s f = some (v, s')) : Inv s' := by
  obtain ⟨o, t, hf, hp, hb, _, _, _, hs⟩ := take_spec grow hg hi h
  have hblock : ∀ g o', s.film g = some o' → g ≠ f → ∀ b, o'.temp.block = some b → s'.heap.block b = s.heap.block b := by
    intro g o' hgo hne b hob
    exact hp.others b (hi.below hgo hob) (fun hx => hne (hi.sep g f o' o b hgo hf hob hx))
  have hdiff : ∀ g o', s.film g = some o' → g ≠ f → ∀ b, o'.temp.block = some b → t.block ≠ some b := by
    intro g o' hgo hne b hob htb
    rcases hp.place with ⟨h1, _⟩ | ⟨⟨b', h1, h2, _⟩, _⟩
    · exact hne (hi.sep g f o' o b hgo hf hob (h1 ▸ htb))
    · rw [h1] at htb; cases htb
      have := hi.below hgo hob
      omega
  refine ⟨?_, ?_, hp.fresh⟩
  · intro g o' hgo
    rw [hs] at hgo
    by_cases hgf : g = f
    · subst hgf; rw [setF_self] at hgo; cases hgo
      obtain ⟨cells, ho, _⟩ := hp.own
      exact ⟨cells, ho⟩
    · rw [setF_ne _ _ _ _ hgf] at hgo
      obtain ⟨cells, ho⟩ := hi.own g o' hgo
      exact ⟨cells, ho.frame (hblock g o' hgo hgf)⟩
  · intro g g' o1 o2 b h1 h2 hb1 hb2
    rw [hs] at h1 h2
    by_cases hgf : g = f <;> by_cases hgf' : g' = f
    · rw [hgf, hgf']
    · rw [hgf, setF_self] at h1; cases h1
      rw [setF_ne _ _ _ _ hgf'] at h2
      exact absurd hb1 (hdiff g' o2 h2 hgf' b hb2)
    · rw [hgf', setF_self] at h2; cases h2
      rw [setF_ne _ _ _ _ hgf] at h1
      exact absurd hb2 (hdiff g o1 h1 hgf b hb1)
    · rw [setF_ne _ _ _ _ hgf] at h1
      rw [setF_ne _ _ _ _ hgf'] at h2
      exact hi.sep g g' o1 o2 b h1 h2 hb1 hb2

variable [Field K]

theorem step_buffer (grow : Nat → Nat) (sf : Nat) (s : World K) (f : Nat) : step grow sf s (.buffer f) = (take grow s f).map (·.2) := by
  simp only [step, take]
  cases s.film f with
  | none => rfl
  | some o =>
    simp only [Option.bind_eq_bind, Option.bind_some]
    cases bufferFilm grow o s.heap with
    | none => rfl
    | some r => rfl

omit [Field K] in
theorem release_block (o : Film K) (m : Heap K) (b : Nat) : (release o m).block b = if o.temp.block = some b then none else m.block b := free_block _ _ _

omit [Field K] in
theorem release_next (o : Film K) (m : Heap K) : (release o m).next = m.next := by
  unfold release free; split <;> rfl

omit [Field K] in
theorem write_spec {sf : Nat} {s s' : World K} {v : View} {y x c : Nat} {a : K} (h : write sf s v y x c a = some s') :
    s'.film = s.film ∧ s'.heap.next = s.heap.next ∧
    ((offset sf v y x c = none ∧ s' = s) ∨ ∃ off cells, offset sf v y x c = some off ∧ off % sf = 0 ∧ s.heap.block v.block = some cells ∧ off / sf < cells.length ∧
      s'.heap.block = setF s.heap.block v.block (some (cells.set (off / sf) (some a)))) := by
  unfold write at h
  cases ho : offset sf v y x c with
  | none => rw [ho] at h; cases h; exact ⟨rfl, rfl, Or.inl ⟨rfl, rfl⟩⟩
  | some off =>
    rw [ho] at h
    simp only at h
    split at h
    · rename_i hm
      cases hb : s.heap.block v.block with
      | none => rw [hb] at h; cases h
      | some cells =>
        rw [hb] at h
        simp only [Option.bind_eq_bind, Option.bind_some] at h
        split at h
        · rename_i hl
          cases h
          exact ⟨rfl, rfl, Or.inr ⟨off, cells, rfl, hm, rfl, hl, rfl⟩⟩
        · cases h
    · cases h

theorem Inv.step {grow : Nat → Nat} (hg : ∀ n, n < grow n) {sf : Nat} {s s' : World K} (hi : Inv s) (c : Cmd K) (h : step grow sf s c = some s') : Inv s' := by
  have hrel : ∀ (f : Nat) (o : Film K), s.film f = some o → ∀ (nf : Option (Film K)), (∀ o', nf = some o' → o'.temp = ⟨none, 0, 0⟩) →
      Inv (⟨setF s.film f nf, release o s.heap⟩ : World K) := by
    intro f o hf nf hnf
    refine ⟨?_, ?_, ?_⟩
    · intro g o' hgo
      have hgo : setF s.film f nf g = some o' := hgo
      by_cases hgf : g = f
      · subst hgf; rw [setF_self] at hgo
        exact ⟨[], by rw [hnf o' hgo]; exact ⟨rfl, Or.inl ⟨rfl, rfl⟩⟩⟩
      · rw [setF_ne _ _ _ _ hgf] at hgo
        obtain ⟨cells, ho⟩ := hi.own g o' hgo
        refine ⟨cells, ho.frame (fun b hb => ?_)⟩
        show (release o s.heap).block b = _
        rw [release_block, if_neg (fun hx => hgf (hi.sep g f o' o b hgo hf hb hx))]
    · intro g g' o1 o2 b h1 h2 hb1 hb2
      have h1 : setF s.film f nf g = some o1 := h1
      have h2 : setF s.film f nf g' = some o2 := h2
      by_cases hgf : g = f
      · subst hgf; rw [setF_self] at h1; rw [hnf o1 h1] at hb1; cases hb1
      by_cases hgf' : g' = f
      · subst hgf'; rw [setF_self] at h2; rw [hnf o2 h2] at hb2; cases hb2
      rw [setF_ne _ _ _ _ hgf] at h1
      rw [setF_ne _ _ _ _ hgf'] at h2
      exact hi.sep g g' o1 o2 b h1 h2 hb1 hb2
    · intro b hb
      show (release o s.heap).block b = none
      have hb : (release o s.heap).next ≤ b := hb
      rw [release_next] at hb
      rw [release_block]; split
      · rfl
      · exact hi.fresh b hb
  cases c with
  | create f w hh =>
    simp only [FilmView.step, Option.some.injEq] at h
    subst h
    cases hf : s.film f with
    | some o => exact hrel f o hf _ (fun o' ho' => by cases ho'; rfl)
    | none =>
      refine ⟨?_, ?_, hi.fresh⟩
      · intro g o' hgo
        have hgo : setF s.film f _ g = some o' := hgo
        by_cases hgf : g = f
        · subst hgf; rw [setF_self] at hgo; cases hgo
          exact ⟨[], rfl, Or.inl ⟨rfl, rfl⟩⟩
        · rw [setF_ne _ _ _ _ hgf] at hgo
          exact hi.own g o' hgo
      · intro g g' o1 o2 b h1 h2 hb1 hb2
        have h1 : setF s.film f _ g = some o1 := h1
        have h2 : setF s.film f _ g' = some o2 := h2
        by_cases hgf : g = f
        · subst hgf; rw [setF_self] at h1; cases h1; cases hb1
        by_cases hgf' : g' = f
        · subst hgf'; rw [setF_self] at h2; cases h2; cases hb2
        rw [setF_ne _ _ _ _ hgf] at h1
        rw [setF_ne _ _ _ _ hgf'] at h2
        exact hi.sep g g' o1 o2 b h1 h2 hb1 hb2
  | destroy f =>
    simp only [FilmView.step, Option.map_eq_some_iff] at h
    obtain ⟨o, ho, rfl⟩ := h
    exact hrel f o ho none (fun o' ho' => by cases ho')
  | edit f e =>
    simp only [FilmView.step] at h
    cases hf : s.film f with
    | none => rw [hf] at h; cases h
    | some o =>
      rw [hf] at h
      simp only [Option.bind_eq_bind, Option.bind_some] at h
      cases hb : edit s o.bmp e with
      | none => rw [hb] at h; cases h
      | some b =>
        rw [hb] at h; cases h
        have key : ∀ g o', setF s.film f (some { o with bmp := b }) g = some o' → ∃ o2, s.film g = some o2 ∧ o2.temp = o'.temp := by
          intro g o' hgo
          by_cases hgf : g = f
          · subst hgf; rw [setF_self] at hgo; cases hgo; exact ⟨o, hf, rfl⟩
          · rw [setF_ne _ _ _ _ hgf] at hgo; exact ⟨o', hgo, rfl⟩
        refine ⟨?_, ?_, hi.fresh⟩
        · intro g o' hgo
          obtain ⟨o2, h2, h3⟩ := key g o' hgo
          rw [← h3]; exact hi.own g o2 h2
        · intro g g' o1 o2 bb h1 h2 hb1 hb2
          obtain ⟨o1', e1, e1'⟩ := key g o1 h1
          obtain ⟨o2', e2, e2'⟩ := key g' o2 h2
          exact hi.sep g g' o1' o2' bb e1 e2 (e1' ▸ hb1) (e2' ▸ hb2)
  | buffer f =>
    rw [step_buffer, Option.map_eq_some_iff] at h
    obtain ⟨⟨v, s1⟩, h1, rfl⟩ := h
    exact hi.take hg h1
  | write v y x c a =>
    obtain ⟨h1, h2, h3⟩ := write_spec (show write sf s v y x c a = some s' from h)
    rcases h3 with ⟨_, rfl⟩ | ⟨off, cells, h3, h4, h5, h6, h7⟩
    · exact hi
    · refine ⟨?_, ?_, ?_⟩
      · intro g o hgo
        rw [h1] at hgo
        obtain ⟨cs, ho⟩ := hi.own g o hgo
        by_cases hb : o.temp.block = some v.block
        · refine ⟨cells.set (off / sf) (some a), ?_, Or.inr ⟨v.block, hb, by rw [h7, setF_self]⟩⟩
          rw [List.length_set]
          rcases ho.2 with ⟨h8, _⟩ | ⟨b', h8, h9⟩
          · rw [h8] at hb; cases hb
          · rw [h8] at hb; cases hb; rw [h5] at h9; cases h9; exact ho.1
        · exact ⟨cs, ho.frame (fun b hb' => by rw [h7, setF_ne _ _ _ _ (by rintro rfl; exact hb hb')])⟩
      · rw [h1]; exact hi.sep
      · intro b hb
        rw [h2] at hb
        rw [h7]
        by_cases hbv : b = v.block
        · subst hbv; rw [hi.fresh _ hb] at h5; cases h5
        · rw [setF_ne _ _ _ _ hbv]; exact hi.fresh b hb

theorem Inv.run {grow : Nat → Nat} (hg : ∀ n, n < grow n) {sf : Nat} : ∀ (cmds : List (Cmd K)) {s s' : World K}, Inv s → run grow sf s cmds = some s' → Inv s'
  | [], _, _, hi, h => by cases h; exact hi
  | c :: cs, s, s', hi, h => by
    rw [FilmView.run, List.foldlM_cons] at h
    cases h1 : FilmView.step grow sf s c with
    | none => rw [h1] at h; cases h
    | some s1 =>
      rw [h1] at h
      exact Inv.run hg cs (hi.step hg c h1) h

end LM.FilmView
