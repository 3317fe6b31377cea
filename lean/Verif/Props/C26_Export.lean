import Verif.Props.C23_Film
import Mathlib.Data.List.ProdSigma
namespace LM.Film

/-! ### Export -/

theorem loopNest_eq (w h : Nat) : loopNest w h = (List.range h) ×ˢ ((List.range w) ×ˢ (List.range 3)) := by
  simp [loopNest, SProd.sprod, List.product, List.map_flatMap, Function.comp_def]

theorem mem_loopNest (w h y x i : Nat) : (y, x, i) ∈ loopNest w h ↔ y < h ∧ x < w ∧ i < 3 := by
  rw [loopNest_eq]; simp [List.mem_product]

theorem loopNest_nodup (w h : Nat) : (loopNest w h).Nodup := by
  rw [loopNest_eq]
  exact List.Nodup.product List.nodup_range (List.Nodup.product List.nodup_range List.nodup_range)

theorem foldlM_write {E T : Type} (src : E → Option T) (dst : E → Nat) : ∀ (l : List E) (v : List T), (l.map dst).Nodup → (∀ e ∈ l, dst e < v.length) →
    (∀ e ∈ l, (src e).isSome) →
    ∃ v', l.foldlM (fun v e => (src e).bind (fun c => modifyAt v (dst e) (fun _ => c))) v = some v' ∧ v'.length = v.length ∧
      (∀ e ∈ l, v'[dst e]? = src e) ∧ ∀ j, (∀ e ∈ l, dst e ≠ j) → v'[j]? = v[j]? := by
  intro l
  induction l with
  | nil => intro v _ _ _; exact ⟨v, rfl, rfl, by simp, fun _ _ => rfl⟩
  | cons e l ih =>
    intro v hnd hlt hdef
    obtain ⟨hni, hnd'⟩ := List.nodup_cons.mp hnd
    have he := hlt e (by simp)
    obtain ⟨c, hc⟩ := Option.isSome_iff_exists.mp (hdef e (by simp))
    have hm : modifyAt v (dst e) (fun _ => c) = some (v.modify (dst e) (fun _ => c)) := if_pos he
    obtain ⟨h1, h2, h3⟩ := modifyAt_get _ _ _ _ hm
    have hne : ∀ e' ∈ l, dst e' ≠ dst e := fun e' he' h => hni (h ▸ List.mem_map_of_mem he')
    obtain ⟨v', e1, e2, e3, e4⟩ := ih (v.modify (dst e) (fun _ => c)) hnd' (fun j hj => by rw [h1]; exact hlt j (by simp [hj]))
      (fun j hj => hdef j (by simp [hj]))
    refine ⟨v', ?_, by omega, ?_, ?_⟩
    · simp only [List.foldlM_cons, hc, Option.bind_some, hm]
      exact e1
    · intro j hj
      rcases List.mem_cons.mp hj with rfl | hj
      · rw [e4 _ hne, h2, hc, List.getElem?_eq_getElem he]; rfl
      · exact e3 j hj
    · intro j hj
      rw [e4 j (fun e' he' => hj e' (by simp [he'])), h3 j (fun h => hj e (by simp) h.symm)]

theorem addr_lt {w h x y i : Nat} (hx : x < w) (hy : y < h) (hi : i < 3) : 3 * (y * w + x) + i < w * h * 3 := by
  have := pixel_lt hx hy
  omega

/-- C26. Addressing is a bijection: the position 3 (y w + x) + i of channel i of pixel (x, y) determines x, y and i, and every position below 3 w h is the
    position of exactly one channel of one pixel. -/
theorem C26_addressing (w h : Nat) :
    (∀ x y i x' y' i', x < w → i < 3 → x' < w → i' < 3 → 3 * (y * w + x) + i = 3 * (y' * w + x') + i' → x = x' ∧ y = y' ∧ i = i') ∧
    ∀ j, j < w * h * 3 ↔ ∃ x y i, x < w ∧ y < h ∧ i < 3 ∧ j = 3 * (y * w + x) + i := by
  constructor
  · intro x y i x' y' i' hx hi hx' hi' heq
    have h1 : i = i' := by omega
    have h2 : y * w + x = y' * w + x' := by omega
    obtain ⟨h3, h4⟩ := pixel_inj hx hx' h2
    exact ⟨h3, h4, h1⟩
  · intro j
    constructor
    · intro hj
      have hp : j / 3 < w * h := by omega
      have hw : 0 < w := by
        rcases Nat.eq_zero_or_pos w with rfl | hw
        · simp at hp
        · exact hw
      refine ⟨j / 3 % w, j / 3 / w, j % 3, Nat.mod_lt _ hw, ?_, Nat.mod_lt _ (by omega), ?_⟩
      · rw [Nat.div_lt_iff_lt_mul hw, Nat.mul_comm h w]; exact hp
      · have := Nat.div_add_mod (j / 3) w
        have e : j / 3 / w * w + j / 3 % w = j / 3 := by rw [Nat.mul_comm]; exact this
        rw [e]; omega
    · rintro ⟨x, y, i, hx, hy, hi, rfl⟩
      exact addr_lt hx hy hi

/-- The row of the output holding row y. -/
def outRow (flip : Bool) (h y : Nat) : Nat := if flip then h - y - 1 else y

/-- C26. Exporting succeeds when every channel converts, yields 3 w h values, and holds channel i of pixel (x, y) at the row-major position of row y, or of
    the mirrored row when flipping. -/
theorem C26_copy {F T : Type} (conv : F → Option T) (zero : T) (b : Bitmap (V3 F)) (hb : WF b) (flip : Bool)
    (hconv : ∀ v ∈ b.data, ∀ i, (conv (chan v i)).isSome) :
    ∃ v, copy conv zero b flip = some v ∧ v.length = b.w * b.h * 3 ∧
      ∀ x y i, x < b.w → y < b.h → i < 3 → v[3 * (outRow flip b.h y * b.w + x) + i]? = (pixel b x y).bind (fun c => conv (chan c i)) := by
  have hrow : ∀ y, y < b.h → outRow flip b.h y < b.h := by intro y hy; unfold outRow; split <;> omega
  have hsome : ∀ e ∈ loopNest b.w b.h, ((b.data[e.1 * b.w + e.2.1]?).bind (fun px => conv (chan px e.2.2))).isSome := by
    rintro ⟨y, x, i⟩ he
    obtain ⟨hy, hx, hi⟩ := (mem_loopNest _ _ _ _ _).mp he
    have hlt : y * b.w + x < b.data.length := by rw [hb]; exact pixel_lt hx hy
    simp only [List.getElem?_eq_getElem hlt, Option.bind_some]
    exact hconv _ (List.getElem_mem hlt) i
  obtain ⟨v, e1, e2, e3, _⟩ := foldlM_write (fun e : Nat × Nat × Nat => (b.data[e.1 * b.w + e.2.1]?).bind (fun px => conv (chan px e.2.2)))
    (fun e => 3 * (outRow flip b.h e.1 * b.w + e.2.1) + e.2.2) (loopNest b.w b.h) (List.replicate (b.w * b.h * 3) zero)
    (by
      apply List.Nodup.map_on _ (loopNest_nodup _ _)
      rintro ⟨y, x, i⟩ he ⟨y', x', i'⟩ he' heq
      obtain ⟨hy, hx, hi⟩ := (mem_loopNest _ _ _ _ _).mp he
      obtain ⟨hy', hx', hi'⟩ := (mem_loopNest _ _ _ _ _).mp he'
      obtain ⟨h1, h2, h3⟩ := (C26_addressing b.w b.h).1 _ _ _ _ _ _ hx hi hx' hi' heq
      have h4 : y = y' := by
        unfold outRow at h2
        simp only at h2
        split at h2 <;> omega
      rw [h1, h3, h4])
    (by
      rintro ⟨y, x, i⟩ he
      obtain ⟨hy, hx, hi⟩ := (mem_loopNest _ _ _ _ _).mp he
      rw [List.length_replicate]
      exact addr_lt hx (hrow y hy) hi)
    hsome
  refine ⟨v, ?_, by simpa using e2, ?_⟩
  · have hf : (fun (v : List T) (e : Nat × Nat × Nat) => ((b.data[e.1 * b.w + e.2.1]?).bind (fun px => conv (chan px e.2.2))).bind
        (fun c => modifyAt v (3 * (outRow flip b.h e.1 * b.w + e.2.1) + e.2.2) (fun _ => c))) =
      (fun (v : List T) (p : Nat × Nat × Nat) => do
        let yy := if flip then b.h - p.1 - 1 else p.1
        let px ← b.data[p.1 * b.w + p.2.1]?
        let c ← conv (chan px p.2.2)
        modifyAt v (3 * (yy * b.w + p.2.1) + p.2.2) (fun _ => c)) := by
      funext v e
      cases b.data[e.1 * b.w + e.2.1]? <;> rfl
    rw [hf] at e1
    exact e1
  · intro x y i hx hy hi
    exact e3 (y, x, i) ((mem_loopNest _ _ _ _ _).mpr ⟨hy, hx, hi⟩)

/-- C26. The flipped export is the mirror image of the unflipped one: row h-1-y of the one is row y of the other. -/
theorem C26_mirror {F T : Type} (conv : F → Option T) (zero : T) (b : Bitmap (V3 F)) (hb : WF b)
    (hconv : ∀ v ∈ b.data, ∀ i, (conv (chan v i)).isSome) :
    ∃ v u, copy conv zero b false = some v ∧ copy conv zero b true = some u ∧ v.length = u.length ∧
      ∀ x y i, x < b.w → y < b.h → i < 3 → u[3 * ((b.h - 1 - y) * b.w + x) + i]? = v[3 * (y * b.w + x) + i]? := by
  obtain ⟨v, h1, h2, h3⟩ := C26_copy conv zero b hb false hconv
  obtain ⟨u, k1, k2, k3⟩ := C26_copy conv zero b hb true hconv
  refine ⟨v, u, h1, k1, by omega, ?_⟩
  intro x y i hx hy hi
  have a := h3 x y i hx hy hi
  have c := k3 x y i hx hy hi
  simp only [outRow, if_true, Bool.false_eq_true, if_false] at a c
  rw [show b.h - 1 - y = b.h - y - 1 by omega, c, a]

/-- C26. Flipping twice: if film b' holds the rows of film b in reverse order, its flipped export equals the unflipped export of b. -/
theorem C26_flip_twice {F T : Type} (conv : F → Option T) (zero : T) (b b' : Bitmap (V3 F)) (hb : WF b) (hb' : WF b') (hw : b'.w = b.w) (hh : b'.h = b.h)
    (hrev : ∀ x y, x < b.w → y < b.h → pixel b' x y = pixel b x (b.h - y - 1))
    (hconv : ∀ v ∈ b.data, ∀ i, (conv (chan v i)).isSome) (hconv' : ∀ v ∈ b'.data, ∀ i, (conv (chan v i)).isSome) :
    copy conv zero b' true = copy conv zero b false := by
  obtain ⟨v, h1, h2, h3⟩ := C26_copy conv zero b hb false hconv
  obtain ⟨u, k1, k2, k3⟩ := C26_copy conv zero b' hb' true hconv'
  rw [h1, k1]
  congr 1
  apply List.ext_getElem?
  intro j
  by_cases hj : j < b.w * b.h * 3
  · obtain ⟨x, y, i, hx, hy, hi, rfl⟩ := ((C26_addressing b.w b.h).2 j).mp hj
    have a := h3 x y i hx hy hi
    have c := k3 x (b.h - y - 1) i (by omega) (by omega) hi
    simp only [outRow, if_true, Bool.false_eq_true, if_false] at a c
    rw [hw, hh] at c
    rw [show b.h - (b.h - y - 1) - 1 = y by omega] at c
    rw [c, a, hrev x (b.h - y - 1) hx (by omega), show b.h - (b.h - y - 1) - 1 = y by omega]
  · rw [List.getElem?_eq_none (by rw [k2, hw, hh]; omega), List.getElem?_eq_none (by omega)]

/-- C26. buffer() exposes channel i of pixel (x, y) at position 3 (y w + x) + i, for every non-empty film. -/
theorem C26_buffer {F : Type} (b : Bitmap (V3 F)) (hb : WF b) (hne : 0 < b.w * b.h) :
    ∃ v, buffer b = some v ∧ v.length = b.w * b.h * 3 ∧ ∀ x y i, x < b.w → y < b.h → i < 3 → v[3 * (y * b.w + x) + i]? = (pixel b x y).map (fun c => chan c i) := by
  have hd : b.data ≠ [] := by intro h; unfold WF at hb; rw [h] at hb; rw [← hb] at hne; exact absurd hne (Nat.lt_irrefl 0)
  have gen : ∀ (d : List (V3 F)), (d.flatMap (fun v => [v.x, v.y, v.z])).length = d.length * 3 ∧
      ∀ k i, i < 3 → (d.flatMap (fun v => [v.x, v.y, v.z]))[3 * k + i]? = (d[k]?).map (fun c => chan c i) := by
    intro d
    induction d with
    | nil => simp
    | cons v d ih =>
      refine ⟨by have := ih.1; simp only [List.flatMap_cons, List.length_append, List.length_cons, List.length_nil, this]; omega, ?_⟩
      intro k i hi
      cases k with
      | zero =>
        match i, hi with
        | 0, _ => rfl
        | 1, _ => rfl
        | 2, _ => rfl
      | succ k =>
        have := ih.2 k i hi
        rw [show 3 * (k + 1) + i = (3 * k + i) + 3 by omega]
        simp only [List.flatMap_cons, List.cons_append, List.nil_append, List.getElem?_cons_succ]
        exact this
  refine ⟨b.data.flatMap (fun v => [v.x, v.y, v.z]), by simp only [buffer, if_neg hd], by rw [(gen b.data).1, hb], ?_⟩
  intro x y i hx hy hi
  exact (gen b.data).2 _ _ hi

/-- The byte written for a channel of a .png is between 0 and 255. -/
theorem C26_byte_range (pw : EF → EF) (t : EF) (n : Nat) (h : toByte pw t = some n) : n ≤ 255 := by
  unfold toByte at h
  split at h
  · obtain ⟨i, _, rfl⟩ := Option.map_eq_some_iff.mp h
    unfold clampI
    omega
  · cases h

/-! ### Saving and the sanity check -/

/-- Specification: an invalid value. -/
def Invalid (v : EF) : Prop := v = .nan ∨ v = .pinf ∨ v = .ninf

theorem sanityLoop_spec (n : Nat) (d : List EF) (hd : n ≤ d.length) : ∀ fuel i k, i + fuel = n → ∃ m, sanityLoop n d fuel i k = some m ∧ k ≤ m ∧
    (k < m ∨ 10 ≤ k ↔ (∃ j v, i ≤ j ∧ j < n ∧ d[j]? = some v ∧ Invalid v) ∨ 10 ≤ k) := by
  intro fuel
  induction fuel with
  | zero =>
    intro i k hi
    refine ⟨k, rfl, Nat.le_refl _, ?_⟩
    constructor
    · rintro (h | h)
      · omega
      · exact .inr h
    · rintro (⟨j, v, h1, h2, _⟩ | h)
      · omega
      · exact .inr h
  | succ fuel ih =>
    intro i k hi
    have hlt : i < n := by omega
    have hget : d[i]? = some d[i] := List.getElem?_eq_getElem (by omega)
    by_cases hv : Invalid d[i]
    · have hk : (if (d[i]).isNan then k + 1 else if (d[i]).isInf then k + 1 else k) = k + 1 := by
        rcases hv with h | h | h <;> simp [h, EF.isNan, EF.isInf]
      simp only [sanityLoop, if_pos hlt, hget, bind, Option.bind_some, hk]
      split
      · exact ⟨k + 1, rfl, by omega, by constructor <;> intro _ <;> exact .inl (by first | exact ⟨i, _, Nat.le_refl _, hlt, hget, hv⟩ | omega)⟩
      · next h10 =>
        obtain ⟨m, h1, h2, h3⟩ := ih (i + 1) (k + 1) (by omega)
        exact ⟨m, h1, by omega, by constructor <;> intro _ <;> exact .inl (by first | exact ⟨i, _, Nat.le_refl _, hlt, hget, hv⟩ | omega)⟩
    · have hk : (if (d[i]).isNan then k + 1 else if (d[i]).isInf then k + 1 else k) = k := by
        cases hdi : d[i] <;> simp [Invalid, hdi, EF.isNan, EF.isInf] at hv ⊢
      simp only [sanityLoop, if_pos hlt, hget, bind, Option.bind_some, hk]
      split
      · next h10 => exact ⟨k, rfl, Nat.le_refl _, by constructor <;> intro _ <;> exact .inr h10⟩
      · next h10 =>
        obtain ⟨m, h1, h2, h3⟩ := ih (i + 1) k (by omega)
        refine ⟨m, h1, h2, h3.trans ?_⟩
        constructor
        · rintro (⟨j, v, h4, h5, h6⟩ | h)
          · exact .inl ⟨j, v, by omega, h5, h6⟩
          · exact .inr h
        · rintro (⟨j, v, h4, h5, h6, h7⟩ | h)
          · refine .inl ⟨j, v, ?_, h5, h6, h7⟩
            rcases Nat.lt_or_eq_of_le h4 with h | h
            · exact h
            · subst h; rw [hget] at h6; cases h6; exact absurd h7 hv
          · exact .inr h

/-- C27 (partial). The sanity check answers that it found an invalid value exactly when one of the first w·h of the 3·w·h floats is NaN or infinite.
    Missing: the remaining two thirds of the values (see the negation). -/
theorem C27_detect_partial (w h : Nat) (d : List EF) (hd : d.length = w * h * 3) :
    ∃ r, sanityCheck w h d = some r ∧ (r = true ↔ ∃ j v, j < w * h ∧ d[j]? = some v ∧ Invalid v) := by
  obtain ⟨m, h1, _, h3⟩ := sanityLoop_spec (w * h) d (by omega) (w * h) 0 0 (by omega)
  refine ⟨decide (m > 0), by simp [sanityCheck, h1], ?_⟩
  simp only [decide_eq_true_eq]
  constructor
  · intro hm
    rcases h3.mp (.inl hm) with ⟨j, v, _, h4, h5, h6⟩ | h
    · exact ⟨j, v, h4, h5, h6⟩
    · omega
  · rintro ⟨j, v, h4, h5, h6⟩
    rcases h3.mpr (.inl ⟨j, v, by omega, h4, h5, h6⟩) with h | h <;> omega

/-- C27. Unknown extensions are refused: nothing is written and the result is failure. -/
theorem C27_unknown_extension (pw toF : EF → EF) (dirOk writeOk : Bool) (b : Bitmap (V3 EF)) (path : List Char)
    (h : extension path ∉ [".png".toList, ".hdr".toList, ".pfm".toList]) :
    ∃ r, save pw toF dirOk writeOk b path = some r ∧ r.ok = false ∧ r.written = none := by
  simp only [List.mem_cons, List.not_mem_nil, or_false, not_or] at h
  cases dirOk
  · exact ⟨⟨false, none, false⟩, rfl, rfl, rfl⟩
  · exact ⟨⟨false, none, false⟩, by simp only [save]; rw [if_neg (by decide), if_neg h.1, if_neg h.2.1, if_neg h.2.2], rfl, rfl⟩

/-- C27. Success is reported only if the file was written, and failure only if it was not, for every extension. -/
theorem C27_ok_iff_written (pw toF : EF → EF) (dirOk writeOk : Bool) (b : Bitmap (V3 EF)) (path : List Char) (r : SaveResult)
    (h : save pw toF dirOk writeOk b path = some r) : r.ok = true ↔ r.written.isSome := by
  unfold save at h
  cases dirOk
  · cases h; simp
  · simp only [Bool.true_eq_false, if_false] at h
    split at h
    · cases hc : copy (toByte pw) 0 b true <;> simp [hc] at h
      cases writeOk <;> simp at h <;> subst h <;> simp
    · split at h
      · cases hc : copy (fun x => some (toF x)) (.fin 0) b true <;> simp [hc] at h
        next d =>
        cases hs : sanityCheck b.w b.h d <;> simp [hs] at h
        cases writeOk <;> simp at h <;> subst h <;> simp
      · split at h
        · cases hc : copy (fun x => some (toF x)) (.fin 0) b false <;> simp [hc] at h
          next d =>
          cases hs : sanityCheck b.w b.h d <;> simp [hs] at h
          cases writeOk <;> simp at h <;> subst h <;> simp
        · cases h; simp

/-- C27, negation. For every film size w, h ≥ 1 there is an image with a NaN in it (third channel of the last pixel) that is written to a .pfm file, with
    success reported and no warning at all: the check looks at the first third of the values only. -/
theorem C27_negation_channels (pw : EF → EF) (w h : Nat) (hw : 0 < w) (hh : 0 < h) :
    ∃ b : Bitmap (V3 EF), b.w = w ∧ b.h = h ∧ WF b ∧ (∃ v ∈ b.data, chan v 2 = .nan) ∧
      ∃ r, save pw id true true b "a.pfm".toList = some r ∧ r.ok = true ∧ r.written.isSome ∧ r.warned = false := by
  let z : V3 EF := ⟨.fin 0, .fin 0, .fin 0⟩
  let n : V3 EF := ⟨.fin 0, .fin 0, .nan⟩
  have hn : 0 < w * h := Nat.mul_pos hw hh
  let b : Bitmap (V3 EF) := ⟨w, h, List.replicate (w * h - 1) z ++ [n]⟩
  have hb : WF b := by simp [WF, b]; omega
  obtain ⟨v, h1, h2, h3⟩ := C26_copy (fun x => some (id x)) (.fin 0) b hb false (fun _ _ _ => rfl)
  obtain ⟨r, h4, h5⟩ := C27_detect_partial w h v h2
  have hr : r = false := by
    cases hr : r with
    | false => rfl
    | true =>
      obtain ⟨j, e, hj, hje, hinv⟩ := h5.mp hr
      obtain ⟨x, y, i, hx, hy, hi, rfl⟩ := ((C26_addressing w h).2 j).mp (by omega)
      have := h3 x y i hx hy hi
      simp only [outRow, Bool.false_eq_true, if_false, b] at this
      rw [hje] at this
      have hfin : e = .fin 0 := by
        have hp : pixel b x y = some z ∨ pixel b x y = some n := by
          have hlt : y * w + x < w * h := pixel_lt hx hy
          by_cases hl : y * w + x < w * h - 1
          · left; simp only [pixel, b]; rw [List.getElem?_append_left (by simpa using hl), List.getElem?_replicate, if_pos hl]
          · right; simp only [pixel, b]
            rw [List.getElem?_append_right (by simp; omega)]
            simp only [List.length_replicate]
            rw [show y * w + x - (w * h - 1) = 0 by omega]; rfl
        have hi2 : i ≠ 2 ∨ pixel b x y = some z := by
          by_cases hl : y * w + x < w * h - 1
          · right; simp only [pixel, b]; rw [List.getElem?_append_left (by simpa using hl), List.getElem?_replicate, if_pos hl]
          · left
            intro h2
            have : w * h ≤ 3 * (y * w + x) + 2 := by omega
            omega
        rcases hp with hp | hp
        · have he : (pixel b x y).bind (fun c => some (id (chan c i))) = some e := this.symm
          rw [hp] at he
          match i, hi with
          | 0, _ => exact (Option.some.inj he).symm
          | 1, _ => exact (Option.some.inj he).symm
          | 2, _ => exact (Option.some.inj he).symm
        · have he : (pixel b x y).bind (fun c => some (id (chan c i))) = some e := this.symm
          rw [hp] at he
          rcases hi2 with hi2 | hi2
          · match i, hi with
            | 0, _ => exact (Option.some.inj he).symm
            | 1, _ => exact (Option.some.inj he).symm
            | 2, _ => exact absurd rfl hi2
          · rw [hp] at hi2; exact absurd (congrArg (fun o => o.map V3.z) hi2) (by decide)
      rw [hfin] at hinv
      rcases hinv with h | h | h <;> cases h
  refine ⟨b, rfl, rfl, hb, ⟨n, by simp [b], rfl⟩, ⟨true, some (.pfm w h v), false⟩, ?_, rfl, rfl, rfl⟩
  have e1 : extension "a.pfm".toList = ".pfm".toList := by decide
  have e2 : ¬ (".pfm".toList = ".png".toList) := by decide
  have e3 : ¬ (".pfm".toList = ".hdr".toList) := by decide
  simp only [save, e1]
  rw [if_neg (by decide), if_neg e2, if_neg e3, if_pos trivial]
  have h1' : copy (fun x => some (id x)) (.fin 0) b false = some v := h1
  rw [h1']
  have h4' : sanityCheck b.w b.h v = some r := h4
  simp only [bind, Option.bind_some]
  rw [h4', hr]
  rfl

/-- C27, negation. Also when the check finds an invalid value the image is written and success is reported: a 1×1 film with a NaN. -/
theorem C27_negation_written (pw : EF → EF) :
    ∃ r, save pw id true true ⟨1, 1, [⟨.nan, .fin 0, .fin 0⟩]⟩ "a.pfm".toList = some r ∧ r.ok = true ∧ r.written.isSome ∧ r.warned = true := by
  have e1 : extension "a.pfm".toList = ".pfm".toList := by decide
  have e2 : ¬ (".pfm".toList = ".png".toList) := by decide
  have e3 : ¬ (".pfm".toList = ".hdr".toList) := by decide
  refine ⟨⟨true, some (.pfm 1 1 [.nan, .fin 0, .fin 0]), true⟩, ?_, rfl, rfl, rfl⟩
  simp only [save, e1]
  rw [if_neg (by decide), if_neg e2, if_neg e3, if_pos trivial]
  rfl

/-- C27, negation. Saving a .png of a film with a value whose power is not finite converts a non-finite value to int: undefined behaviour, no check. -/
theorem C27_negation_png (pw : EF → EF) (hp : pw .nan = .nan) : save pw id true true ⟨1, 1, [⟨.nan, .fin 0, .fin 0⟩]⟩ "a.png".toList = none := by
  have e1 : extension "a.png".toList = ".png".toList := by decide
  simp only [save, e1]
  rw [if_neg (by decide), if_pos trivial]
  simp [copy, loopNest, List.range, List.range.loop, chan, toByte, hp]

example : extension "out/a.b/x.hdr".toList = ".hdr".toList ∧ extension "out/a.b/x".toList = [] ∧ extension "d/.png".toList = [] := by decide

end LM.Film
