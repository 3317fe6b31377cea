import Verif.Props.C104_Array
import Verif.Spec.FilmView
/-
  C104: theorems.
-/
namespace LM.FilmView
open LM.Film

variable {K : Type}

theorem offset_cell {sf : Nat} (hs : 0 < sf) {v : View} {y x c off : Nat} (h : offset sf v y x c = some off) :
    y < v.h ∧ x < v.w ∧ c < 3 ∧ off % sf = 0 ∧ off / sf = 3 * (y * v.w + x) + c := by
  unfold offset at h
  split at h
  · rename_i hc
    cases h
    have he : y * (3 * v.w * sf) + x * (3 * sf) + c * sf = (3 * (y * v.w + x) + c) * sf := by ring
    rw [he]
    exact ⟨hc.1, hc.2.1, hc.2.2, Nat.mul_mod_left _ _, Nat.mul_div_cancel _ hs⟩
  · cases h

theorem offset_some (sf : Nat) {v : View} {y x c : Nat} (hy : y < v.h) (hx : x < v.w) (hc : c < 3) : ∃ off, offset sf v y x c = some off :=
  ⟨_, if_pos ⟨hy, hx, hc⟩⟩

/-- Reading in terms of the cells. -/
theorem read_eq {sf : Nat} (hs : 0 < sf) (s : World K) (v : View) {y x c : Nat} (hy : y < v.h) (hx : x < v.w) (hc : c < 3) :
    read sf s v y x c = match (s.heap.block v.block).bind (fun cells => (cells[3 * (y * v.w + x) + c]?).bind id) with
      | none => .undef
      | some a => .val a := by
  obtain ⟨off, ho⟩ := offset_some sf hy hx hc
  obtain ⟨_, _, _, h1, h2⟩ := offset_cell hs ho
  unfold read
  rw [ho]
  simp only [cellAt, h1, if_true, h2]
  cases (s.heap.block v.block).bind (fun cells => (cells[3 * (y * v.w + x) + c]?).bind id) <;> rfl

theorem read_index (sf : Nat) (s : World K) (v : View) {y x c : Nat} (h : ¬ (y < v.h ∧ x < v.w ∧ c < 3)) : read sf s v y x c = .indexError := by
  unfold read offset
  rw [if_neg h]

variable [Field K]

theorem modifyAt_length {V : Type} {d d' : List V} {i : Nat} {f : V → V} (h : modifyAt d i f = some d') : d'.length = d.length := by
  unfold modifyAt at h
  split at h
  · cases h; simp
  · cases h

/-- The functions of a film keep it consistent, and only construct and load change its size. -/
theorem edit_wf {s : World K} (hw : ∀ f o, s.film f = some o → WF o.bmp) {b b' : Bitmap (V3 K)} (hb : WF b) {f : Nat} {e : Edit K}
    (hc : Consistent (.edit f e)) (h : edit s b e = some b') :
    WF b' ∧ ((∀ w h, e ≠ .construct w h) → (∀ x, e ≠ .load x) → b'.w = b.w ∧ b'.h = b.h) := by
  have pix : ∀ {i : Nat} {g : V3 K → V3 K}, (modifyAt b.data i g).map (fun d => { b with data := d }) = some b' → WF b' ∧ b'.w = b.w ∧ b'.h = b.h := by
    intro i g hm
    rw [Option.map_eq_some_iff] at hm
    obtain ⟨d, hd, rfl⟩ := hm
    exact ⟨by unfold WF at hb ⊢; rw [modifyAt_length hd]; exact hb, rfl, rfl⟩
  cases e with
  | construct w hh => cases h; exact ⟨by simp [WF, Film.construct], fun h1 => absurd rfl (h1 w hh)⟩
  | load x => cases h; exact ⟨hc, fun _ h1 => absurd rfl (h1 b')⟩
  | setPixel x y v => exact ⟨(pix h).1, fun _ _ => (pix h).2⟩
  | splatPixel x y v => exact ⟨(pix h).1, fun _ _ => (pix h).2⟩
  | updatePixel x y g => exact ⟨(pix h).1, fun _ _ => (pix h).2⟩
  | rescale k =>
    have h : Film.rescale b k (List.range (b.w * b.h)) = some b' := h
    rw [C25_rescale b hb k _ (List.Perm.refl _)] at h
    cases h
    exact ⟨by unfold WF at hb ⊢; simpa using hb, fun _ _ => ⟨rfl, rfl⟩⟩
  | clear => cases h; exact ⟨by simp [WF, Film.clear], fun _ _ => ⟨rfl, rfl⟩⟩
  | accum g =>
    simp only [edit] at h
    cases hg : s.film g with
    | none => rw [hg] at h; cases h
    | some o =>
      rw [hg] at h
      simp only [Option.bind_some, Option.map_eq_some_iff] at h
      obtain ⟨⟨ok, b1⟩, h1, rfl⟩ := h
      obtain ⟨h2, h3⟩ := C25_accum b o.bmp hb (hw g o hg)
      by_cases hd : b.w ≠ o.bmp.w ∨ b.h ≠ o.bmp.h
      · rw [h2 hd] at h1; cases h1; exact ⟨hb, fun _ _ => ⟨rfl, rfl⟩⟩
      · push Not at hd
        obtain ⟨b2, e1, e2, e3, e4, _⟩ := h3 hd.1 hd.2
        rw [e1] at h1; cases h1
        exact ⟨e2, fun _ _ => ⟨e3, e4⟩⟩

/-- The state of a film after a call. -/
theorem step_film {grow : Nat → Nat} (hg : ∀ n, n < grow n) {sf : Nat} {s s' : World K} (hi : Inv s) {c : Cmd K} (h : step grow sf s c = some s') (g : Nat) :
    match c with
    | .create f w hh => s'.film g = if g = f then some ⟨Film.construct w hh, ⟨none, 0, 0⟩⟩ else s.film g
    | .destroy f => s'.film g = if g = f then none else s.film g
    | .edit f e => ∃ o b, s.film f = some o ∧ edit s o.bmp e = some b ∧ s'.heap = s.heap ∧ s'.film g = if g = f then some { o with bmp := b } else s.film g
    | .buffer f => ∃ v o t, take grow s f = some (v, s') ∧ s.film f = some o ∧ Pushed o.temp s.heap o.bmp.data t s'.heap ∧ t.block = some v.block ∧
        s'.film g = if g = f then some { o with temp := t } else s.film g
    | .write _ _ _ _ _ => s'.film g = s.film g := by
  cases c with
  | create f w hh => cases h; simp only [setF]
  | destroy f =>
    simp only [step, Option.map_eq_some_iff] at h
    obtain ⟨o, ho, rfl⟩ := h
    simp only [setF]
  | edit f e =>
    simp only [step] at h
    cases hf : s.film f with
    | none => rw [hf] at h; cases h
    | some o =>
      rw [hf] at h
      simp only [Option.bind_eq_bind, Option.bind_some] at h
      cases hb : edit s o.bmp e with
      | none => rw [hb] at h; cases h
      | some b =>
        rw [hb] at h; cases h
        exact ⟨o, b, hf, hb, rfl, by simp only [setF]⟩
  | buffer f =>
    rw [step_buffer, Option.map_eq_some_iff] at h
    obtain ⟨⟨v, s1⟩, h1, rfl⟩ := h
    obtain ⟨o, t, h2, h3, h4, _, _, _, h5⟩ := take_spec grow hg hi h1
    exact ⟨v, o, t, h1, h2, h3, h4, by rw [h5]; simp only [setF]⟩
  | write v y x c a =>
    show s'.film g = s.film g
    rw [(write_spec (show write sf s v y x c a = some s' from h)).1]

/-- Every film has as many pixels as its size says. -/
theorem wf_step {grow : Nat → Nat} (hg : ∀ n, n < grow n) {sf : Nat} {s s' : World K} (hi : Inv s) (hw : ∀ f o, s.film f = some o → WF o.bmp) {c : Cmd K}
    (hc : Consistent c) (h : step grow sf s c = some s') : ∀ f o, s'.film f = some o → WF o.bmp := by
  intro g o hgo
  have hs := step_film hg hi h g
  cases c with
  | create f w hh =>
    simp only at hs
    rw [hs] at hgo
    split at hgo
    · cases hgo; simp [WF, Film.construct]
    · exact hw g o hgo
  | destroy f =>
    simp only at hs
    rw [hs] at hgo
    split at hgo
    · cases hgo
    · exact hw g o hgo
  | edit f e =>
    obtain ⟨o1, b, h1, h2, _, h3⟩ := hs
    rw [h3] at hgo
    split at hgo
    · cases hgo; exact (edit_wf hw (hw f o1 h1) (f := f) hc h2).1
    · exact hw g o hgo
  | buffer f =>
    obtain ⟨v, o1, t, _, h1, _, _, h3⟩ := hs
    rw [h3] at hgo
    split at hgo
    · cases hgo; exact hw f o1 h1
    · exact hw g o hgo
  | write v y x c a =>
    simp only at hs
    rw [hs] at hgo; exact hw g o hgo

theorem run_cons {grow : Nat → Nat} {sf : Nat} {s s' : World K} {c : Cmd K} {cs : List (Cmd K)} (h : run grow sf s (c :: cs) = some s') :
    ∃ s1, step grow sf s c = some s1 ∧ run grow sf s1 cs = some s' := by
  rw [run, List.foldlM_cons] at h
  cases h1 : step grow sf s c with
  | none => rw [h1] at h; cases h
  | some s1 => rw [h1] at h; exact ⟨s1, rfl, h⟩

theorem wf_run {grow : Nat → Nat} (hg : ∀ n, n < grow n) {sf : Nat} : ∀ (cmds : List (Cmd K)) {s s' : World K}, Inv s → (∀ f o, s.film f = some o → WF o.bmp) →
    (∀ c ∈ cmds, Consistent c) → run grow sf s cmds = some s' → ∀ f o, s'.film f = some o → WF o.bmp
  | [], _, _, _, hw, _, h => by cases h; exact hw
  | c :: cs, s, s', hi, hw, hc, h => by
    obtain ⟨s1, h1, h2⟩ := run_cons h
    exact wf_run hg cs (hi.step hg c h1) (wf_step hg hi hw (hc c (by simp)) h1) (fun c' hc' => hc c' (by simp [hc'])) h2

/-- Both invariants hold in every state a program can reach. -/
theorem reach {grow : Nat → Nat} (hg : ∀ n, n < grow n) {sf : Nat} {cmds : List (Cmd K)} (hc : ∀ c ∈ cmds, Consistent c) {s : World K}
    (h : run grow sf (init K) cmds = some s) : Inv s ∧ ∀ f o, s.film f = some o → WF o.bmp :=
  ⟨Inv.run hg cmds Inv.init h, wf_run hg cmds Inv.init (fun _ _ h => by cases h) hc h⟩

omit [Field K] in
/-- The block behind a fresh array, and the pixels in it. -/
theorem take_cells {grow : Nat → Nat} (hg : ∀ n, n < grow n) {s : World K} (hi : Inv s) {f : Nat} {v : View} {s' : World K} (h : take grow s f = some (v, s')) :
    ∃ o t cells, s.film f = some o ∧ s'.film f = some { o with temp := t } ∧ t.block = some v.block ∧ o.bmp.data.length ≤ t.cap ∧ v.w = o.bmp.w ∧ v.h = o.bmp.h ∧
      o.bmp.data ≠ [] ∧ s'.heap.block v.block = some cells ∧ cells.length = 3 * t.cap ∧
      ∀ k c, k < o.bmp.data.length → c < 3 → cells[3 * k + c]? = (o.bmp.data[k]?).map (fun p => some (chan p c)) := by
  obtain ⟨o, t, h1, h2, h3, h4, h5, h6, h7⟩ := take_spec grow hg hi h
  obtain ⟨cells, ho, ht, _⟩ := h2.own
  have hb : s'.heap.block v.block = some cells := by
    rcases ho.2 with ⟨h8, _⟩ | ⟨b, h8, h9⟩
    · rw [h3] at h8; cases h8
    · rw [h3] at h8; cases h8; exact h9
  refine ⟨o, t, cells, h1, by rw [h7, setF_self], h3, by rw [← h2.len]; exact h2.fits, h4, h5, h6, hb, ho.1, ?_⟩
  intro k c hk hc
  rw [← flat_get _ k c hc, ← ht, List.getElem?_take_of_lt (by rw [h2.len]; omega)]

/-- An array just taken shows the film. -/
theorem shows_take {grow : Nat → Nat} (hg : ∀ n, n < grow n) {sf : Nat} (hs : 0 < sf) {s : World K} (hi : Inv s) (hw : ∀ f o, s.film f = some o → WF o.bmp)
    {f : Nat} {v : View} {s' : World K} (h : take grow s f = some (v, s')) :
    ∃ o o', s.film f = some o ∧ s'.film f = some o' ∧ o'.bmp = o.bmp ∧ Shows sf s' v o.bmp := by
  obtain ⟨o, t, cells, h1, h2, h3, _, h4, h5, _, h6, _, h7⟩ := take_cells hg hi h
  refine ⟨o, _, h1, h2, rfl, h4, h5, ?_, ?_⟩
  · intro y x c hy hx hc
    have hlt : y * o.bmp.w + x < o.bmp.data.length := by rw [hw f o h1]; exact pixel_lt hx hy
    refine ⟨o.bmp.data[y * o.bmp.w + x], List.getElem?_eq_getElem hlt, ?_⟩
    rw [read_eq hs s' v (h5 ▸ hy) (h4 ▸ hx) hc, h6, h4]
    simp only [Option.bind_some]
    rw [h7 _ c hlt hc, List.getElem?_eq_getElem hlt]
    rfl
  · intro y x c hn
    exact read_index sf s' v (by rw [h4, h5]; exact hn)

/-- C104. Whatever a program did before, with any number of films and arrays: the array it gets from a film shows that film as it is at the moment of the call,
    element by element, and taking it does not change the film. -/
theorem C104_shows (grow : Nat → Nat) (hg : ∀ n, n < grow n) (sf : Nat) (hs : 0 < sf) (cmds : List (Cmd K)) (hc : ∀ c ∈ cmds, Consistent c) (s : World K)
    (h : run grow sf (init K) cmds = some s) (f : Nat) (v : View) (s' : World K) (ht : take grow s f = some (v, s')) :
    ∃ o o', s.film f = some o ∧ s'.film f = some o' ∧ o'.bmp = o.bmp ∧ Shows sf s' v o.bmp :=
  shows_take hg hs (reach hg hc h).1 (reach hg hc h).2 ht

/-- C104. The array is there for the asking exactly if the film has a pixel. For a film without one, of width or height 0, buffer() is undefined behaviour:
    see C104_negation_empty. -/
theorem C104_available (grow : Nat → Nat) (hg : ∀ n, n < grow n) (sf : Nat) (cmds : List (Cmd K)) (hc : ∀ c ∈ cmds, Consistent c) (s : World K)
    (h : run grow sf (init K) cmds = some s) (f : Nat) (o : Film K) (ho : s.film f = some o) :
    (∃ v s', take grow s f = some (v, s')) ↔ 0 < o.bmp.w * o.bmp.h := by
  obtain ⟨hi, hw⟩ := reach hg hc h
  have hl : o.bmp.data.length = o.bmp.w * o.bmp.h := hw f o ho
  obtain ⟨t, m, _, he, hb⟩ := bufferFilm_spec grow hg hi ho
  unfold take
  rw [ho]
  simp only [Option.bind_eq_bind, Option.bind_some]
  rw [he]
  by_cases hd : o.bmp.data = []
  · rw [if_pos hd, ← hl, hd]; simp
  · obtain ⟨b, hb⟩ := hb hd
    rw [if_neg hd, hb, ← hl]
    simp only [Option.map_some, Option.bind_some]
    exact ⟨fun _ => List.length_pos_iff.mpr hd, fun _ => ⟨_, _, rfl⟩⟩

/-- One call that leaves an array alone leaves its memory alone. -/
theorem leaves_step {grow : Nat → Nat} (hg : ∀ n, n < grow n) {sf : Nat} {s s' : World K} (hi : Inv s) {f b : Nat} {o : Film K} (ho : s.film f = some o)
    (hb : o.temp.block = some b) {c : Cmd K} (hc : Leaves f b c) (h : step grow sf s c = some s') :
    s'.heap.block b = s.heap.block b ∧ ∃ o', s'.film f = some o' ∧ o'.temp.block = some b := by
  have hs := step_film hg hi h f
  have hrel : ∀ g o', g ≠ f → s.film g = some o' → (release o' s.heap).block b = s.heap.block b := by
    intro g o' hne hgo
    rw [release_block, if_neg (fun hx => hne (hi.sep g f o' o b hgo ho hx hb))]
  cases c with
  | create g w hh =>
    have hc : g ≠ f := hc
    simp only at hs
    rw [if_neg (Ne.symm hc)] at hs
    refine ⟨?_, o, by rw [hs]; exact ho, hb⟩
    cases h
    simp only
    cases hgo : s.film g with
    | none => rfl
    | some o' => exact hrel g o' hc hgo
  | destroy g =>
    have hc : g ≠ f := hc
    simp only at hs
    rw [if_neg (Ne.symm hc)] at hs
    refine ⟨?_, o, by rw [hs]; exact ho, hb⟩
    simp only [step, Option.map_eq_some_iff] at h
    obtain ⟨o', ho', rfl⟩ := h
    exact hrel g o' hc ho'
  | edit g e =>
    obtain ⟨o1, b1, h1, h2, h3, h4⟩ := hs
    refine ⟨by rw [h3], ?_⟩
    rw [h4]
    split
    · rename_i hfg
      subst hfg
      rw [ho] at h1; cases h1
      exact ⟨_, rfl, hb⟩
    · exact ⟨o, ho, hb⟩
  | buffer g =>
    have hc : g ≠ f := hc
    obtain ⟨v, o1, t, _, h1, h2, _, h4⟩ := hs
    rw [if_neg (Ne.symm hc)] at h4
    exact ⟨h2.others b (hi.below ho hb) (fun hx => hc (hi.sep g f o1 o b h1 ho hx hb)), o, by rw [h4]; exact ho, hb⟩
  | write v y x c a =>
    have hc : v.block ≠ b := hc
    simp only at hs
    refine ⟨?_, o, by rw [hs]; exact ho, hb⟩
    obtain ⟨_, _, h3⟩ := write_spec (show write sf s v y x c a = some s' from h)
    rcases h3 with ⟨_, rfl⟩ | ⟨off, cells, _, _, _, _, h7⟩
    · rfl
    · rw [h7, setF_ne _ _ _ _ (Ne.symm hc)]

theorem leaves_run {grow : Nat → Nat} (hg : ∀ n, n < grow n) {sf : Nat} {f b : Nat} : ∀ (cmds : List (Cmd K)) {s s' : World K}, Inv s →
    (∃ o, s.film f = some o ∧ o.temp.block = some b) → (∀ c ∈ cmds, Leaves f b c) → run grow sf s cmds = some s' →
    s'.heap.block b = s.heap.block b ∧ ∃ o, s'.film f = some o ∧ o.temp.block = some b
  | [], _, _, _, ho, _, h => by cases h; exact ⟨rfl, ho⟩
  | c :: cs, s, s', hi, ⟨o, ho, hb⟩, hc, h => by
    obtain ⟨s1, h1, h2⟩ := run_cons h
    obtain ⟨h3, h4⟩ := leaves_step hg hi ho hb (hc c (by simp)) h1
    obtain ⟨h5, h6⟩ := leaves_run hg cs (hi.step hg c h1) h4 (fun c' hc' => hc c' (by simp [hc'])) h2
    exact ⟨h5.trans h3, h6⟩

/-- C104. The array is a snapshot until buffer() is called again: whatever happens to the film and to other films in between, be it drawing, clearing or a change
    of size, the array keeps showing what it showed. Missing: the next call to buffer() on the same film, which changes it (C104_negation_earlier_array, and
    C104_refresh for how), and deletion of the film (C104_negation_deleted). -/
theorem C104_snapshot_partial (grow : Nat → Nat) (hg : ∀ n, n < grow n) (sf : Nat) (cmds : List (Cmd K)) (s : World K)
    (h : run grow sf (init K) cmds = some s) (f : Nat) (v : View) (s' : World K) (ht : take grow s f = some (v, s'))
    (later : List (Cmd K)) (hl : ∀ c ∈ later, Leaves f v.block c) (s'' : World K) (h' : run grow sf s' later = some s'') (y x c : Nat) :
    read sf s'' v y x c = read sf s' v y x c := by
  have hi := Inv.run hg cmds Inv.init h
  obtain ⟨o, t, cells, h1, h2, h3, _⟩ := take_cells hg hi ht
  obtain ⟨h4, _⟩ := leaves_run hg later (hi.take hg ht) ⟨_, h2, h3⟩ hl h'
  unfold read cellAt
  rw [h4]

/-- What an array needs to stay in use. -/
def Alive (n f b : Nat) (s : World K) : Prop :=
  ∃ o cells, s.film f = some o ∧ o.temp.block = some b ∧ n ≤ o.temp.cap ∧ o.bmp.data.length ≤ n ∧ s.heap.block b = some cells ∧
    ∀ j, j < 3 * n → ∃ a, cells[j]? = some (some a)

theorem alive_step {grow : Nat → Nat} (hg : ∀ n, n < grow n) {sf : Nat} {s s' : World K} (hi : Inv s) (hw : ∀ f o, s.film f = some o → WF o.bmp) {n f b : Nat}
    (ha : Alive n f b s) {c : Cmd K} (hcons : Consistent c) (hc : AtMost n f c) (h : step grow sf s c = some s') : Alive n f b s' := by
  obtain ⟨o, cells, ho, hb, hcap, hlen, hcells, hinit⟩ := ha
  have other : Leaves f b c → (∀ g e, c = .edit g e → g ≠ f) → Alive n f b s' := by
    intro hL hE
    obtain ⟨h1, _⟩ := leaves_step hg hi ho hb hL h
    have hs := step_film hg hi h f
    refine ⟨o, cells, ?_, hb, hcap, hlen, by rw [h1]; exact hcells, hinit⟩
    cases c with
    | create g w hh => simp only at hs; rw [hs, if_neg (Ne.symm hL), ho]
    | destroy g => simp only at hs; rw [hs, if_neg (Ne.symm hL), ho]
    | edit g e =>
      obtain ⟨_, _, _, _, _, h4⟩ := hs
      rw [h4, if_neg (Ne.symm (hE g e rfl)), ho]
    | buffer g =>
      obtain ⟨_, _, _, _, _, _, _, h4⟩ := hs
      rw [h4, if_neg (Ne.symm hL), ho]
    | write v y x c a => simp only at hs; rw [hs, ho]
  cases c with
  | create g w hh => exact other hc (fun _ _ hx => by cases hx)
  | destroy g => exact other hc (fun _ _ hx => by cases hx)
  | edit g e =>
    by_cases hgf : g = f
    · subst hgf
      obtain ⟨o1, b1, h1, h2, h3, h4⟩ := step_film hg hi h g
      rw [ho] at h1; cases h1
      rw [if_pos rfl] at h4
      obtain ⟨hwf, hsame⟩ := edit_wf hw (hw g o ho) hcons h2
      refine ⟨_, cells, h4, hb, hcap, ?_, by rw [h3]; exact hcells, hinit⟩
      show b1.data.length ≤ n
      have hwf : b1.data.length = b1.w * b1.h := hwf
      rw [hwf]
      have hold : o.bmp.data.length = o.bmp.w * o.bmp.h := hw g o ho
      cases e with
      | construct w hh => cases h2; exact hc rfl
      | load x => cases h2; exact hc rfl
      | setPixel x y v => obtain ⟨e1, e2⟩ := hsame (fun _ _ h => by cases h) (fun _ h => by cases h); rw [e1, e2, ← hold]; exact hlen
      | splatPixel x y v => obtain ⟨e1, e2⟩ := hsame (fun _ _ h => by cases h) (fun _ h => by cases h); rw [e1, e2, ← hold]; exact hlen
      | updatePixel x y v => obtain ⟨e1, e2⟩ := hsame (fun _ _ h => by cases h) (fun _ h => by cases h); rw [e1, e2, ← hold]; exact hlen
      | rescale k => obtain ⟨e1, e2⟩ := hsame (fun _ _ h => by cases h) (fun _ h => by cases h); rw [e1, e2, ← hold]; exact hlen
      | clear => obtain ⟨e1, e2⟩ := hsame (fun _ _ h => by cases h) (fun _ h => by cases h); rw [e1, e2, ← hold]; exact hlen
      | accum k => obtain ⟨e1, e2⟩ := hsame (fun _ _ h => by cases h) (fun _ h => by cases h); rw [e1, e2, ← hold]; exact hlen
    · exact other trivial (fun _ _ hx => by cases hx; exact hgf)
  | buffer g =>
    by_cases hgf : g = f
    · subst hgf
      obtain ⟨v, o1, t, h1, h2, h3, h4, h5⟩ := step_film hg hi h g
      rw [ho] at h2; cases h2
      rw [if_pos rfl] at h5
      rcases h3.place with ⟨p1, p2, _⟩ | ⟨_, p2, _⟩
      · obtain ⟨cells', q1, q2, q3⟩ := h3.own
        have hb' : t.block = some b := p1.trans hb
        refine ⟨_, cells', h5, hb', by show n ≤ t.cap; omega, hlen, ?_, ?_⟩
        · rcases q1.2 with ⟨q4, _⟩ | ⟨b2, q4, q5⟩
          · rw [hb'] at q4; cases q4
          · rw [hb'] at q4; cases q4; exact q5
        · intro j hj
          obtain ⟨cs, hcs⟩ := hi.own g o ho
          have : cs = cells := by
            rcases hcs.2 with ⟨r1, _⟩ | ⟨b2, r1, r2⟩
            · rw [hb] at r1; cases r1
            · rw [hb] at r1; cases r1; rw [hcells] at r2; cases r2; rfl
          subst this
          exact q3 p1 cs hcs j (hinit j hj)
      · exfalso; omega
    · exact other hgf (fun _ _ hx => by cases hx)
  | write v y x c a =>
    have hs := step_film hg hi h f
    simp only at hs
    obtain ⟨_, _, h3⟩ := write_spec (show write sf s v y x c a = some s' from h)
    rcases h3 with ⟨_, rfl⟩ | ⟨off, cs, _, _, h5, h6, h7⟩
    · exact ⟨o, cells, ho, hb, hcap, hlen, hcells, hinit⟩
    · by_cases hvb : v.block = b
      · rw [hvb] at h5 h7
        rw [hcells] at h5; cases h5
        refine ⟨o, cells.set (off / sf) (some a), by rw [hs, ho], hb, hcap, hlen, by rw [h7, setF_self], ?_⟩
        intro j hj
        by_cases hjo : off / sf = j
        · exact ⟨a, by rw [← hjo, List.getElem?_set_self h6]⟩
        · rw [List.getElem?_set_ne hjo]; exact hinit j hj
      · exact other hvb (fun _ _ hx => by cases hx)

theorem alive_run {grow : Nat → Nat} (hg : ∀ n, n < grow n) {sf : Nat} {n f b : Nat} : ∀ (cmds : List (Cmd K)) {s s' : World K}, Inv s →
    (∀ f o, s.film f = some o → WF o.bmp) → Alive n f b s → (∀ c ∈ cmds, Consistent c ∧ AtMost n f c) → run grow sf s cmds = some s' →
    Alive n f b s' ∧ Inv s' ∧ ∀ f o, s'.film f = some o → WF o.bmp
  | [], _, _, hi, hw, ha, _, h => by cases h; exact ⟨ha, hi, hw⟩
  | c :: cs, s, s', hi, hw, ha, hc, h => by
    obtain ⟨s1, h1, h2⟩ := run_cons h
    exact alive_run hg cs (hi.step hg c h1) (wf_step hg hi hw (hc c (by simp)).1 h1) (alive_step hg hi hw ha (hc c (by simp)).1 (hc c (by simp)).2 h1)
      (fun c' hc' => hc c' (by simp [hc'])) h2

theorem alive_take {grow : Nat → Nat} (hg : ∀ n, n < grow n) {s : World K} (hi : Inv s) (hw : ∀ f o, s.film f = some o → WF o.bmp) {f : Nat} {v : View}
    {s' : World K} (h : take grow s f = some (v, s')) : Alive (v.w * v.h) f v.block s' := by
  obtain ⟨o, t, cells, h1, h2, h3, hcap, h4, h5, _, h6, _, h7⟩ := take_cells hg hi h
  have hl : o.bmp.data.length = o.bmp.w * o.bmp.h := hw f o h1
  refine ⟨_, cells, h2, h3, by rw [h4, h5, ← hl]; exact hcap, by rw [h4, h5, ← hl], h6, ?_⟩
  intro j hj
  rw [h4, h5, ← hl] at hj
  have := h7 (j / 3) (j % 3) (by omega) (Nat.mod_lt _ (by omega))
  rw [show 3 * (j / 3) + j % 3 = j by omega, List.getElem?_eq_getElem (show j / 3 < o.bmp.data.length by omega)] at this
  exact ⟨_, this⟩

/-- C104. The array stays usable: as long as the film is not deleted and does not get more pixels than it had, every element of the array can be read, whatever
    else happens, including further calls to buffer() and writing through arrays. Missing: a film that is deleted (C104_negation_deleted) or enlarged
    (C104_negation_enlarged). -/
theorem C104_usable_partial (grow : Nat → Nat) (hg : ∀ n, n < grow n) (sf : Nat) (hs : 0 < sf) (cmds : List (Cmd K)) (hc : ∀ c ∈ cmds, Consistent c) (s : World K)
    (h : run grow sf (init K) cmds = some s) (f : Nat) (v : View) (s' : World K) (ht : take grow s f = some (v, s'))
    (later : List (Cmd K)) (hl : ∀ c ∈ later, Consistent c ∧ AtMost (v.w * v.h) f c) (s'' : World K) (h' : run grow sf s' later = some s'')
    (y x c : Nat) (hy : y < v.h) (hx : x < v.w) (hcc : c < 3) : ∃ a, read sf s'' v y x c = .val a := by
  obtain ⟨hi, hw⟩ := reach hg hc h
  have hw' : ∀ g o, s'.film g = some o → WF o.bmp := wf_step (sf := sf) hg hi hw (c := .buffer f) trivial (by rw [step_buffer, ht]; rfl)
  obtain ⟨⟨o, cells, _, _, _, _, h1, h2⟩, _⟩ := alive_run hg later (hi.take hg ht) hw' (alive_take hg hi hw ht) hl h'
  obtain ⟨a, ha⟩ := h2 (3 * (y * v.w + x) + c) (by have := pixel_lt hx hy; omega)
  refine ⟨a, ?_⟩
  rw [read_eq hs s'' v hy hx hcc, h1]
  simp only [Option.bind_some]
  rw [ha]
  rfl

/-- C104. All arrays taken from a film are the same memory: under the conditions of C104_usable_partial, a further call to buffer() writes the film of that moment
    into the memory of the earlier array. If the film has its old size again, the earlier array shows the film as it is now, exactly as the new one does. -/
theorem C104_refresh (grow : Nat → Nat) (hg : ∀ n, n < grow n) (sf : Nat) (hs : 0 < sf) (cmds : List (Cmd K)) (hc : ∀ c ∈ cmds, Consistent c) (s : World K)
    (h : run grow sf (init K) cmds = some s) (f : Nat) (v : View) (s' : World K) (ht : take grow s f = some (v, s'))
    (later : List (Cmd K)) (hl : ∀ c ∈ later, Consistent c ∧ AtMost (v.w * v.h) f c) (s2 : World K) (h' : run grow sf s' later = some s2)
    (v2 : View) (s3 : World K) (ht2 : take grow s2 f = some (v2, s3)) :
    v2.block = v.block ∧ (v2.w = v.w → v2.h = v.h → ∃ o, s2.film f = some o ∧ Shows sf s3 v o.bmp ∧ Shows sf s3 v2 o.bmp) := by
  obtain ⟨hi, hw⟩ := reach hg hc h
  have hw' : ∀ g o, s'.film g = some o → WF o.bmp := wf_step (sf := sf) hg hi hw (c := .buffer f) trivial (by rw [step_buffer, ht]; rfl)
  obtain ⟨⟨o, cells, h1, h2, h3, h4, _⟩, hi2, hw2⟩ := alive_run hg later (hi.take hg ht) hw' (alive_take hg hi hw ht) hl h'
  obtain ⟨o1, t, k1, k2, k3, _⟩ := take_spec grow hg hi2 ht2
  rw [h1] at k1; cases k1
  have hb : v2.block = v.block := by
    rcases k2.place with ⟨p1, _⟩ | ⟨_, p2, _⟩
    · rw [k3, h2] at p1; exact Option.some.inj p1
    · omega
  refine ⟨hb, fun hw3 hh3 => ?_⟩
  obtain ⟨o2, _, e1, _, _, e3⟩ := shows_take hg hs hi2 hw2 ht2
  have hv : v2 = v := by cases v; cases v2; simp only at hb hw3 hh3; rw [hb, hw3, hh3]
  exact ⟨o2, e1, hv ▸ e3, e3⟩

omit [Field K] in
/-- C104. Writing to an element of an array changes that element, no other element of it, and no film: the pixels of all films stay as they are. -/
theorem C104_write (sf : Nat) (hs : 0 < sf) (s : World K) (v : View) (y x c : Nat) (hy : y < v.h) (hx : x < v.w) (hc : c < 3) (a : K) (s' : World K)
    (h : write sf s v y x c a = some s') :
    read sf s' v y x c = .val a ∧ (∀ y' x' c', (y', x', c') ≠ (y, x, c) → read sf s' v y' x' c' = read sf s v y' x' c') ∧ s'.film = s.film ∧
    ∀ v' : View, v'.block ≠ v.block → ∀ y' x' c', read sf s' v' y' x' c' = read sf s v' y' x' c' := by
  obtain ⟨h1, _, h3⟩ := write_spec h
  obtain ⟨off0, ho0⟩ := offset_some sf hy hx hc
  rcases h3 with ⟨h3, _⟩ | ⟨off, cells, h3, _, h5, h6, h7⟩
  · rw [ho0] at h3; cases h3
  obtain ⟨_, _, _, _, hidx⟩ := offset_cell hs h3
  refine ⟨?_, ?_, h1, ?_⟩
  · rw [read_eq hs s' v hy hx hc, h7, setF_self]
    simp only [Option.bind_some]
    rw [← hidx, List.getElem?_set_self h6]
    rfl
  · intro y' x' c' hne
    by_cases hin : y' < v.h ∧ x' < v.w ∧ c' < 3
    · rw [read_eq hs s' v hin.1 hin.2.1 hin.2.2, read_eq hs s v hin.1 hin.2.1 hin.2.2, h7, setF_self, h5]
      simp only [Option.bind_some]
      rw [List.getElem?_set_ne]
      intro hx'
      rw [hidx] at hx'
      have e1 : c = c' := by omega
      have e2 : y * v.w + x = y' * v.w + x' := by omega
      obtain ⟨e3, e4⟩ := pixel_inj hx hin.2.1 e2
      exact hne (by rw [e1, e3, e4])
    · rw [read_index sf s' v hin, read_index sf s v hin]
  · intro v' hv' y' x' c'
    unfold read cellAt
    rw [h7, setF_ne _ _ _ _ hv']

/-- C104, violated part. The array dies with its film: whatever the history, after the film is deleted (or another film is created under its name), reading any
    element of the array, or writing to it, is undefined behaviour. Nothing in the binding keeps the film alive. -/
theorem C104_negation_deleted (grow : Nat → Nat) (hg : ∀ n, n < grow n) (sf : Nat) (hs : 0 < sf) (cmds : List (Cmd K)) (s : World K)
    (h : run grow sf (init K) cmds = some s) (f : Nat) (v : View) (s' : World K) (ht : take grow s f = some (v, s')) (w hh : Nat)
    (y x c : Nat) (hy : y < v.h) (hx : x < v.w) (hc : c < 3) (a : K) (d : Cmd K) (hd : d = .destroy f ∨ d = .create f w hh) :
    ∃ s'', step grow sf s' d = some s'' ∧ read sf s'' v y x c = .undef ∧ write sf s'' v y x c a = none := by
  have hi := Inv.run hg cmds Inv.init h
  obtain ⟨o, t, cells, h1, h2, h3, _⟩ := take_cells hg hi ht
  have key : ∀ s'' : World K, s''.heap.block v.block = none → read sf s'' v y x c = .undef ∧ write sf s'' v y x c a = none := by
    intro s'' hn
    refine ⟨by rw [read_eq hs s'' v hy hx hc, hn]; rfl, ?_⟩
    obtain ⟨off, ho⟩ := offset_some sf hy hx hc
    unfold write
    rw [ho]
    simp only [hn]
    split <;> rfl
  rcases hd with rfl | rfl
  · refine ⟨⟨setF s'.film f none, release { o with temp := t } s'.heap⟩, by simp only [step, h2, Option.map_some], key _ ?_⟩
    show (release _ _).block _ = none
    rw [release_block, if_pos h3]
  · refine ⟨⟨_, release { o with temp := t } s'.heap⟩, by simp only [step, h2]; rfl, key _ ?_⟩
    show (release _ _).block _ = none
    rw [release_block, if_pos h3]

/-- C104, violated part. The array dies when its film is enlarged: for every array there is a size such that after giving the film that size and asking for its
    array, reading any element of the earlier array is undefined behaviour, although the film is alive. -/
theorem C104_negation_enlarged (grow : Nat → Nat) (hg : ∀ n, n < grow n) (sf : Nat) (hs : 0 < sf) (cmds : List (Cmd K)) (s : World K)
    (h : run grow sf (init K) cmds = some s) (f : Nat) (v : View) (s' : World K) (ht : take grow s f = some (v, s')) :
    ∃ w s'', run grow sf s' [.edit f (.construct w 1), .buffer f] = some s'' ∧ (∃ o, s''.film f = some o) ∧
      ∀ y x c, y < v.h → x < v.w → c < 3 → read sf s'' v y x c = .undef := by
  have hi := Inv.run hg cmds Inv.init h
  have hi' := hi.take hg ht
  obtain ⟨o, t, cells, h1, h2, h3, _⟩ := take_cells hg hi ht
  have e1 : step grow sf s' (.edit f (.construct (t.cap + 1) 1)) = some { s' with film := setF s'.film f (some ⟨Film.construct (t.cap + 1) 1, t⟩) } := by
    simp only [step, h2, edit, Option.bind_eq_bind, Option.bind_some]
  have hi1 := hi'.step hg _ e1
  have hf1 : ({ s' with film := setF s'.film f (some ⟨Film.construct (t.cap + 1) 1, t⟩) } : World K).film f = some ⟨Film.construct (t.cap + 1) 1, t⟩ := setF_self _ _ _
  obtain ⟨t2, m2, hp, he, hb⟩ := bufferFilm_spec grow hg hi1 hf1
  have hne : (Film.construct (K := K) (t.cap + 1) 1).data ≠ [] := by
    intro hx
    have := congrArg List.length hx
    simp [Film.construct] at this
  obtain ⟨b2, hb2⟩ := hb hne
  rw [if_neg hne, hb2] at he
  refine ⟨t.cap + 1, ⟨setF (setF s'.film f (some ⟨Film.construct (t.cap + 1) 1, t⟩)) f (some ⟨Film.construct (t.cap + 1) 1, t2⟩), m2⟩, ?_, ⟨_, setF_self _ _ _⟩, ?_⟩
  · rw [run, List.foldlM_cons, e1]
    simp only [Option.bind_eq_bind, Option.bind_some, List.foldlM_cons, List.foldlM_nil]
    have : step grow sf ({ s' with film := setF s'.film f (some ⟨Film.construct (t.cap + 1) 1, t⟩) } : World K) (.buffer f) = some ⟨setF (setF s'.film f (some ⟨Film.construct (t.cap + 1) 1, t⟩)) f (some ⟨Film.construct (t.cap + 1) 1, t2⟩), m2⟩ := by
      simp only [step, setF_self, Option.bind_eq_bind, Option.bind_some]
      rw [he]
      rfl
    rw [this]
    rfl
  · intro y x c hy hx hc
    rw [read_eq hs _ v hy hx hc]
    dsimp only
    rcases hp.place with ⟨_, _, p3⟩ | ⟨_, _, p3⟩
    · exfalso
      simp only [Film.construct, List.length_replicate] at p3
      omega
    · rw [p3 v.block h3]
      rfl

/-- C104, violated part. A film without pixels: creating it is accepted, asking it for its array is undefined behaviour (the first element of an empty vector). -/
theorem C104_negation_empty (grow : Nat → Nat) (sf : Nat) (w h : Nat) (hz : w * h = 0) :
    ∃ s, run (K := K) grow sf (init K) [.create 0 w h] = some s ∧ (∃ o, s.film 0 = some o) ∧ take grow s 0 = none := by
  refine ⟨_, rfl, ⟨⟨Film.construct w h, ⟨none, 0, 0⟩⟩, rfl⟩, ?_⟩
  simp [take, init, setF, bufferFilm, Film.construct, hz]

end LM.FilmView
