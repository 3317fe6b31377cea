import Verif.Props.C49_Bidir
import Mathlib.Tactic.Linarith
/-
  C48: connecting subpaths. C52: the length of subpaths.
-/
namespace LM.Path
open LM LM.Surface

/-- Equal except for the type of the interaction. -/
def Vert.SameUpToType (a b : Vert) : Prop := a.comp = b.comp ∧ a.sp.primitive = b.sp.primitive ∧ a.sp.geom = b.sp.geom

theorem Vert.SameUpToType.rfl' (a : Vert) : a.SameUpToType a := ⟨rfl, rfl, rfl⟩

/-- What connecting returns: the vertices of `vs` with the first one typed as light and the last one as camera. -/
structure Typed (vs vs' : List Vert) : Prop where
  length : vs'.length = vs.length
  /-- the inner vertices are untouched, the end vertices only change their type -/
  inner : ∀ i : ℕ, 0 < i → i + 1 < vs.length → vs'[i]? = vs[i]?
  same : ∀ (i : ℕ) (a : Vert), vs[i]? = some a → ∃ b : Vert, vs'[i]? = some b ∧ b.SameUpToType a
  first : ∀ b : Vert, 1 < vs.length → vs'[0]? = some b → b.sp.kind = .light
  last : ∀ b : Vert, vs'[vs.length - 1]? = some b → b.sp.kind = .camera

theorem finish_ok (W : World) (vs vs' : List Vert) (h : finish W vs = .ok vs') :
    Typed vs vs' ∧ ∃ vL vE, vs[0]? = some vL ∧ vs[vs.length - 1]? = some vE ∧ isLight W vL.sp = true ∧ isCamera W vE.sp = true := by
  unfold finish at h
  cases h0 : vs[0]? with
  | none => simp [h0] at h
  | some vL =>
  cases h1 : vs[vs.length - 1]? with
  | none => simp [h0, h1] at h
  | some vE =>
  simp only [h0, h1] at h
  by_cases hl : isLight W vL.sp = true
  swap
  · simp [hl] at h
  by_cases hc : isCamera W vE.sp = true
  swap
  · simp [hl, hc] at h
  simp only [hl, hc, Bool.not_true, if_false, Bool.false_eq_true, List.length_set] at h
  refine ⟨?_, vL, vE, rfl, rfl, hl, hc⟩
  have hlen : 0 < vs.length := by
    rcases Nat.eq_zero_or_pos vs.length with h | h
    · rw [List.length_eq_zero_iff.mp h] at h0; simp at h0
    · exact h
  cases h2 : (vs.set 0 { vL with sp := vL.sp.asType .light })[vs.length - 1]? with
  | none => simp [h2] at h
  | some vE' =>
  simp only [h2] at h
  injection h with h
  have hE : vE'.SameUpToType vE := by
    rw [List.getElem?_set] at h2
    by_cases hz : 0 = vs.length - 1
    · rw [if_pos hz, if_pos (by omega)] at h2
      injection h2 with h2
      rw [← hz, h0] at h1
      injection h1 with h1
      subst h1; subst h2
      exact ⟨rfl, rfl, rfl⟩
    · rw [if_neg hz, h1] at h2
      injection h2 with h2
      subst h2
      exact .rfl' _
  have get : ∀ i, vs'[i]? = if i = vs.length - 1 then some { vE' with sp := vE'.sp.asType .camera } else if i = 0 then some { vL with sp := vL.sp.asType .light } else vs[i]? := by
    intro i
    rw [← h, List.getElem?_set]
    by_cases hi : vs.length - 1 = i
    · rw [if_pos hi, if_pos hi.symm, if_pos (by rw [List.length_set]; omega)]
    · rw [if_neg hi, if_neg (Ne.symm hi), List.getElem?_set]
      by_cases h0' : 0 = i
      · rw [if_pos h0', if_pos h0'.symm, if_pos (by omega)]
      · rw [if_neg h0', if_neg (Ne.symm h0')]
  refine ⟨by rw [← h]; simp, ?_, ?_, ?_, ?_⟩
  · intro i hi hi2
    rw [get, if_neg (by omega), if_neg (by omega)]
  · intro i a ha
    rw [get]
    by_cases hi : i = vs.length - 1
    · rw [if_pos hi]
      rw [hi, h1] at ha
      injection ha with ha
      subst ha
      exact ⟨_, rfl, hE⟩
    · rw [if_neg hi]
      by_cases hz : i = 0
      · rw [if_pos hz]
        rw [hz, h0] at ha
        injection ha with ha
        subst ha
        exact ⟨_, rfl, rfl, rfl, rfl⟩
      · rw [if_neg hz]
        exact ⟨a, ha, .rfl' _⟩
  · intro b hb h
    rw [get, if_neg (by omega), if_pos rfl] at h
    injection h with h
    rw [← h]; rfl
  · intro b h
    rw [get, if_pos rfl] at h
    injection h with h
    rw [← h]; rfl

/-- The vertices connecting should use: the first s of the light subpath in order, then the first t of the eye subpath, last one first. -/
def joined (L E : List Vert) (s t : ℕ) : List Vert := L.take s ++ (E.take t).reverse

theorem connect_ok (W : World) (vis : SI → SI → Bool) (L E : List Vert) (s t : ℕ) (vs : List Vert)
    (h : connect W vis L E s t = .ok vs) : finish W (joined L E s t) = .ok vs := by
  unfold connect at h
  unfold joined
  by_cases h0 : s = 0 ∧ t = 0
  · rw [if_pos h0] at h; simp at h
  rw [if_neg h0] at h
  by_cases hs0 : s = 0
  · rw [if_pos hs0] at h
    cases hv : subpathVertexAt E (t - 1) with
    | none => simp [hv] at h
    | some v =>
      simp only [hv] at h
      by_cases hd : v.sp.geom.degenerated = true
      · simp [hd] at h
      · simp only [hd, if_false, Bool.false_eq_true] at h
        simpa [hs0] using h
  rw [if_neg hs0] at h
  by_cases ht0 : t = 0
  · rw [if_pos ht0] at h
    cases hv : subpathVertexAt L (s - 1) with
    | none => simp [hv] at h
    | some v =>
      simp only [hv] at h
      by_cases hd : v.sp.geom.degenerated = true
      · simp [hd] at h
      · simp only [hd, if_false, Bool.false_eq_true] at h
        simpa [ht0] using h
  rw [if_neg ht0] at h
  cases h1 : L[s - 1]? with
  | none => simp [h1] at h
  | some vL =>
  cases h2 : E[t - 1]? with
  | none => simp [h1, h2] at h
  | some vE =>
  simp only [h1, h2] at h
  split_ifs at h
  exact h

/-- C48: a successful connection of the first s vertices of a light subpath and the first t vertices of an eye subpath has s + t vertices; the i-th vertex counted from the light is the i-th
    vertex of the light subpath for i < s and the i-th vertex counted from the camera is the i-th vertex of the eye subpath for i < t, the end vertices up to their type; the end vertices have the
    types light and camera. -/
theorem C48_connect (W : World) (vis : SI → SI → Bool) (L E : List Vert) (s t : ℕ) (hs : s ≤ L.length) (ht : t ≤ E.length) (vs : List Vert)
    (h : connect W vis L E s t = .ok vs) :
    vs.length = s + t ∧
    (∀ i a, i < s → L[i]? = some a → ∃ b, vertexAt vs i .LE = some b ∧ b.SameUpToType a ∧ (0 < i → i + 1 < s + t → b = a)) ∧
    (∀ i a, i < t → E[i]? = some a → ∃ b, vertexAt vs i .EL = some b ∧ b.SameUpToType a ∧ (0 < i → i + 1 < s + t → b = a)) ∧
    (∀ b, 1 < s + t → vertexAt vs 0 .LE = some b → b.sp.kind = .light) ∧
    (∀ b, vertexAt vs 0 .EL = some b → b.sp.kind = .camera) := by
  obtain ⟨T, vL, vE, h0, h1, -, -⟩ := finish_ok W _ _ (connect_ok W vis L E s t vs h)
  have hlen : (joined L E s t).length = s + t := by simp [joined]; omega
  have hn : vs.length = s + t := by rw [T.length, hlen]
  have hpos : 0 < s + t := by
    rcases Nat.eq_zero_or_pos (s + t) with h | h
    · have hnil : joined L E s t = [] := List.length_eq_zero_iff.mp (by rw [hlen, h])
      rw [hnil] at h0; simp at h0
    · exact h
  have key : ∀ j a, (joined L E s t)[j]? = some a → ∃ b, vs[j]? = some b ∧ b.SameUpToType a ∧ (0 < j → j + 1 < s + t → b = a) := by
    intro j a ha
    obtain ⟨b, hb, hsame⟩ := T.same j a ha
    refine ⟨b, hb, hsame, fun h1 h2 => ?_⟩
    have := T.inner j h1 (by rw [hlen]; exact h2)
    rw [hb, ha] at this
    injection this
  have vLE : ∀ i, i < s + t → vertexAt vs (i : ℕ) .LE = vs[i]? := by
    intro i hi
    unfold vertexAt index
    rw [if_pos (by omega), if_pos rfl]
    simp
  have vEL : ∀ i, i < s + t → vertexAt vs (i : ℕ) .EL = vs[s + t - 1 - i]? := by
    intro i hi
    unfold vertexAt index
    rw [if_pos (by omega), if_neg (by decide), hn]
    congr 1; omega
  refine ⟨hn, ?_, ?_, ?_, ?_⟩
  · intro i a hi ha
    rw [vLE i (by omega)]
    refine key i a ?_
    unfold joined
    rw [List.getElem?_append_left (by simp; omega), List.getElem?_take_of_lt hi, ha]
  · intro i a hi ha
    rw [vEL i (by omega)]
    have hj : (joined L E s t)[s + t - 1 - i]? = some a := by
      unfold joined
      rw [List.getElem?_append_right (by simp; omega), List.getElem?_reverse (by simp; omega)]
      have : (E.take t).length - 1 - (s + t - 1 - i - (L.take s).length) = i := by simp; omega
      rw [this, List.getElem?_take_of_lt hi, ha]
    obtain ⟨b, hb, hsame, heq⟩ := key _ a hj
    exact ⟨b, hb, hsame, fun h1 h2 => heq (by omega) (by omega)⟩
  · intro b hb h
    refine T.first b (by omega) ?_
    rw [← vLE 0 (by omega)]; exact h
  · intro b h
    refine T.last b ?_
    rw [hlen, show s + t - 1 = s + t - 1 - 0 by omega, ← vEL 0 (by omega)]; exact h

/-- C48: when a connection of two non-empty subpaths succeeds: neither connected vertex is at infinity, they see each other, the first vertex is a light and the last one the camera. -/
theorem C48_when (W : World) (vis : SI → SI → Bool) (L E : List Vert) (s t : ℕ) (hs : 0 < s ∧ s ≤ L.length) (ht : 0 < t ∧ t ≤ E.length)
    (vL vE l0 e0 : Vert) (hL : L[s - 1]? = some vL) (hE : E[t - 1]? = some vE) (hl0 : L[0]? = some l0) (he0 : E[0]? = some e0) :
    (∃ vs, connect W vis L E s t = .ok vs) ↔
      vL.sp.geom.infinite = false ∧ vE.sp.geom.infinite = false ∧ vis vL.sp vE.sp = true ∧ isLight W l0.sp = true ∧ isCamera W e0.sp = true := by
  have hj0 : (joined L E s t)[0]? = some l0 := by
    unfold joined
    rw [List.getElem?_append_left (by simp; omega), List.getElem?_take_of_lt hs.1, hl0]
  have hlen : (joined L E s t).length = s + t := by simp [joined]; omega
  have hj1 : (joined L E s t)[(joined L E s t).length - 1]? = some e0 := by
    rw [hlen]
    unfold joined
    rw [List.getElem?_append_right (by simp; omega), List.getElem?_reverse (by simp; omega)]
    have : (E.take t).length - 1 - (s + t - 1 - (L.take s).length) = 0 := by simp; omega
    rw [this, List.getElem?_take_of_lt ht.1, he0]
  constructor
  · rintro ⟨vs, h⟩
    obtain ⟨-, a, b, ha, hb, h1, h2⟩ := finish_ok W _ _ (connect_ok W vis L E s t vs h)
    rw [hj0] at ha
    rw [hj1] at hb
    injection ha with ha
    injection hb with hb
    subst ha; subst hb
    unfold connect at h
    rw [if_neg (by omega), if_neg (by omega), if_neg (by omega)] at h
    simp only [hL, hE] at h
    split_ifs at h with c1 c2
    simp at c1 c2
    exact ⟨c1.1, c1.2, c2, h1, h2⟩
  · rintro ⟨i1, i2, hv, h1, h2⟩
    unfold connect
    rw [if_neg (by omega), if_neg (by omega), if_neg (by omega)]
    simp only [hL, hE, i1, i2, hv, Bool.or_self, Bool.not_true, if_false, Bool.false_eq_true]
    change ∃ vs, finish W (joined L E s t) = _
    unfold finish
    simp only [hj0, hj1, h1, h2, Bool.not_true, if_false, Bool.false_eq_true, List.length_set]
    cases hx : ((joined L E s t).set 0 { l0 with sp := l0.sp.asType .light })[(joined L E s t).length - 1]? with
    | none => rw [List.getElem?_eq_none_iff] at hx; simp at hx; omega
    | some x => exact ⟨_, rfl⟩

/-- The hypotheses can be met: a light subpath of two vertices and an eye subpath of two vertices connect in both ways; a surface hit is retyped. -/
example : connect exLine (fun _ _ => true) [exL, exS] [exE, exS] 2 1 = .ok [exL, exS, exE] ∧ connect exLine (fun _ _ => true) [exL, exS] [exE, exS] 1 2 = .ok [exL, exS, exE] ∧
    connect exLine (fun _ _ => true) [⟨exL.sp.asType .surface, 7⟩] [exE, exS] 1 2 = .ok [⟨exL.sp, 7⟩, exS, exE] ∧
    connect exLine (fun _ _ => false) [exL, exS] [exE, exS] 1 2 = .fail := ⟨rfl, rfl, rfl, rfl⟩

/-! ### C52 -/

theorem walk_le (m : Int) (st : List Step) : ∀ vs vs' : List Vert, (vs.length : Int) ≤ m → (2 ≤ m ∨ vs ≠ []) → walk m vs st = some vs' → (vs'.length : Int) ≤ m := by
  induction st with
  | nil =>
    intro vs vs' hle _ h
    unfold walk at h
    split_ifs at h
    · injection h with h; rwa [← h]
    · injection h with h; rwa [← h]
  | cons a st ih =>
    intro vs vs' hle h2 h
    unfold walk at h
    by_cases hz : m = 0
    · rw [if_pos hz] at h
      injection h with h; rwa [← h]
    rw [if_neg hz] at h
    by_cases hlt : (vs.length : Int) < m
    swap
    · rw [if_neg hlt] at h
      injection h with h; rwa [← h]
    rw [if_pos hlt] at h
    simp only at h
    have key : ∀ ray : List Vert, (ray.length : Int) + 1 ≤ m →
        (match a.hit with | none => some ray | some hv => if hv.sp.geom.infinite = true then some (ray ++ [hv]) else walk m (ray ++ [hv]) st) = some vs' → (vs'.length : Int) ≤ m := by
      intro ray hr hh
      cases hhit : a.hit with
      | none => rw [hhit] at hh; simp at hh; rw [← hh]; omega
      | some hv =>
        rw [hhit] at hh
        simp only at hh
        split_ifs at hh
        · injection hh with hh; rw [← hh]; simp; omega
        · exact ih _ _ (by simp; omega) (Or.inr (by simp)) hh
    by_cases h0 : vs.length = 0
    · rw [if_pos h0] at h
      have h2' : 2 ≤ m := by
        rcases h2 with h2 | h2
        · exact h2
        · exact absurd (List.length_eq_zero_iff.mp h0) h2
      cases hst : a.start with
      | none => rw [hst] at h; simp at h; rw [← h]; omega
      | some sp =>
        rw [hst] at h
        simp only [Option.map_some] at h
        exact key _ (by simp; omega) h
    · rw [if_neg h0] at h
      by_cases hsm : a.sampled = true
      · rw [if_pos hsm] at h
        exact key _ (by omega) h
      · rw [if_neg hsm] at h
        simp at h; rw [← h]; omega

/-- C52 holds for every maximum except 1: whatever the scene answers, a subpath sampled with maximum m has at most m vertices. Missing: the maximum 1 (C52_negation). -/
theorem C52_length_partial (m : ℕ) (hm : m ≠ 1) (st : List Step) (vs : List Vert) (h : walk m [] st = some vs) : vs.length ≤ m := by
  by_cases h0 : m = 0
  · subst h0
    unfold walk at h
    simp at h
    simp [← h]
  · have := walk_le m st [] vs (by simp) (Or.inl (by omega)) h
    exact_mod_cast this

/-- Extending a non-empty path never exceeds the maximum, or leaves it as it is when it already has that many vertices. -/
theorem C52_extend (m : ℕ) (st : List Step) (vs vs' : List Vert) (hne : vs ≠ []) (h : walk m vs st = some vs') : vs'.length ≤ max m vs.length := by
  by_cases hle : vs.length ≤ m
  · have := walk_le m st vs vs' (by exact_mod_cast hle) (Or.inr hne) h
    have : vs'.length ≤ m := by exact_mod_cast this
    omega
  · unfold walk at h
    by_cases h1 : (m : Int) = 0
    · rw [if_pos h1] at h; injection h with h; rw [← h]; omega
    · rw [if_neg h1, if_neg (by omega)] at h; injection h with h; rw [← h]; omega

/-- The walk always ends: with as many answers as the maximum it is over. -/
theorem C52_terminates (m : ℕ) (st : List Step) (h : m ≤ st.length) : ∃ vs, walk m [] st = some vs := by
  have : ∀ (st : List Step) (vs : List Vert), m ≤ st.length + vs.length → ∃ vs', walk m vs st = some vs' := by
    intro st
    induction st with
    | nil =>
      intro vs h
      unfold walk
      split_ifs with h1 h2
      · exact ⟨_, rfl⟩
      · simp at h; omega
      · exact ⟨_, rfl⟩
    | cons a st ih =>
      intro vs h
      unfold walk
      split_ifs with h1 h2 h3
      · exact ⟨_, rfl⟩
      · simp only
        cases a.start with
        | none => exact ⟨_, rfl⟩
        | some sp =>
          simp only [Option.map_some]
          cases a.hit with
          | none => exact ⟨_, rfl⟩
          | some hv =>
            simp only
            split_ifs
            · exact ⟨_, rfl⟩
            · exact ih _ (by simp at h ⊢; omega)
      · simp only
        cases a.sampled with
        | false => exact ⟨_, rfl⟩
        | true =>
          simp only [if_true]
          cases a.hit with
          | none => exact ⟨_, rfl⟩
          | some hv =>
            simp only
            split_ifs
            · exact ⟨_, rfl⟩
            · exact ih _ (by simp at h ⊢; omega)
      · exact ⟨_, rfl⟩
  exact this st [] (by simpa using h)

/-- C52 fails for the maximum 1: whenever a primary ray is sampled and hits something the subpath has two vertices. -/
theorem C52_negation (sp : SI) (h : Vert) (sampled : Bool) (st : List Step) : walk 1 [] (⟨some sp, sampled, some h⟩ :: st) = some [⟨sp, 0⟩, h] := by
  unfold walk
  simp
  intro _
  unfold walk
  simp

/-- A walk with three vertices ending at infinity. -/
example (sp : SI) (a b : Vert) (ha : a.sp.geom.infinite = false) (hb : b.sp.geom.infinite = true) :
    walk 5 [] [⟨some sp, true, some a⟩, ⟨none, true, some b⟩] = some [⟨sp, 0⟩, a, b] := by
  unfold walk
  simp [ha]
  unfold walk
  simp [hb]

end LM.Path
