import Verif.Model.Texture
import Mathlib.Tactic.Linarith
import Mathlib.Tactic.NormNum
import Mathlib.Tactic.FieldSimp
import Mathlib.Data.Rat.Floor
/-
  C66: texture lookups stay inside the image.

  Specification: `texel b x y k` is channel k of the pixel in column x and row y of the image, stored row by row with c interleaved channels;
  `Fits b`: the sizes are positive, the data holds w * h * c values and their number is an int (stb_image refuses other images);
  `Rounds`: what is used of floating-point rounding: it is monotone and exact on 0, 1 and the image sizes.
-/
namespace LM.Texture
open LM

variable {K : Type} [Field K] [LinearOrder K] [IsStrictOrderedRing K] [FloorRing K]

/-- Channel k of the pixel in column x of row y. -/
def texel (b : Bitmap K) (x y k : Nat) : Option K := b.data[(b.w.toNat * y + x) * b.c.toNat + k]?

structure Fits (b : Bitmap K) : Prop where
  w : 0 < b.w
  h : 0 < b.h
  c : 0 < b.c
  len : (b.data.length : Int) = b.w * b.h * b.c
  size : b.w * b.h * b.c < 2 ^ 31

structure Rounds (rnd : K → K) : Prop where
  mono : Monotone rnd
  exact : ∀ n : Int, 0 ≤ n → n < 2 ^ 31 → rnd n = n

theorem Rounds.id : Rounds (fun x : K => x) := ⟨monotone_id, fun _ _ _ => rfl⟩

/-! ### Coordinates -/

theorem i32_some {z : Int} (h0 : 0 ≤ z) (h1 : z < 2 ^ 31) : i32 z = some z := by
  unfold i32; rw [if_pos ⟨by omega, h1⟩]

theorem coord_spec (rnd : K → K) (hr : Rounds rnd) (t : K) (n : Int) (hn : 0 < n) (hn2 : n < 2 ^ 31) :
    ∃ x, coord rnd t n = some x ∧ 0 ≤ x ∧ x < n ∧ x = min ⌊rnd (rnd (Int.fract t) * (n : K))⌋ (n - 1) := by
  have hn' : (0 : K) ≤ (n : K) := by exact_mod_cast hn.le
  have r0 : rnd 0 = 0 := by have := hr.exact 0 le_rfl (by norm_num); simpa using this
  have r1 : rnd 1 = 1 := by have := hr.exact 1 (by norm_num) (by norm_num); simpa using this
  have u0 : 0 ≤ rnd (Int.fract t) := by rw [← r0]; exact hr.mono (Int.fract_nonneg t)
  have u1 : rnd (Int.fract t) ≤ 1 := by rw [← r1]; exact hr.mono (Int.fract_lt_one t).le
  have v0 : 0 ≤ rnd (rnd (Int.fract t) * (n : K)) := by rw [← r0]; exact hr.mono (mul_nonneg u0 hn')
  have v1 : rnd (rnd (Int.fract t) * (n : K)) ≤ n := by
    rw [← hr.exact n hn.le hn2]
    apply hr.mono
    rw [hr.exact n hn.le hn2]
    nlinarith
  have f0 : 0 ≤ ⌊rnd (rnd (Int.fract t) * (n : K))⌋ := Int.floor_nonneg.mpr v0
  have f1 : ⌊rnd (rnd (Int.fract t) * (n : K))⌋ ≤ n := by
    have := Int.floor_le_floor v1
    rwa [Int.floor_intCast] at this
  refine ⟨min ⌊rnd (rnd (Int.fract t) * (n : K))⌋ (n - 1), ?_, by omega, by omega, rfl⟩
  unfold coord trunc
  dsimp only
  have e : t - (⌊t⌋ : K) = Int.fract t := rfl
  rw [e, if_pos v0, i32_some f0 (by omega), Option.bind_some, i32_some (by omega) (by omega), Option.bind_some]
  unfold clamp
  rw [if_neg (by omega), if_neg (by omega)]
  congr 1
  split_ifs <;> omega

/-- C66. For every coordinate, in floating-point arithmetic as well, the selected row or column is defined and lies inside the image; without rounding it is the cell that contains the fractional part of the coordinate. -/
theorem C66_coordinate (rnd : K → K) (hr : Rounds rnd) (t : K) (n : Int) (hn : 0 < n) (hn2 : n < 2 ^ 31) :
    (∃ x, coord rnd t n = some x ∧ 0 ≤ x ∧ x < n) ∧
    (∀ x, coord (fun v => v) t n = some x ↔ (x : K) / n ≤ Int.fract t ∧ Int.fract t < (x + 1 : K) / n) := by
  refine ⟨?_, fun x => ?_⟩
  · obtain ⟨x, h, h0, h1, -⟩ := coord_spec rnd hr t n hn hn2
    exact ⟨x, h, h0, h1⟩
  · obtain ⟨x', h, h0, h1, hx⟩ := coord_spec (fun v : K => v) Rounds.id t n hn hn2
    have hn' : (0 : K) < (n : K) := by exact_mod_cast hn
    have hlt : ⌊Int.fract t * (n : K)⌋ < n := by
      rw [Int.floor_lt]
      have := Int.fract_lt_one t
      nlinarith
    have hx' : x' = ⌊Int.fract t * (n : K)⌋ := by
      rw [hx]; exact min_eq_left (by omega)
    rw [h, Option.some.injEq, hx', Int.floor_eq_iff, div_le_iff₀ hn', lt_div_iff₀ hn']

/-- C66. Coordinates that differ by an integer select the same row or column, in floating-point arithmetic as well (when both are representable). -/
theorem C66_periodic (rnd : K → K) (t : K) (m n : Int) : coord rnd (t + m) n = coord rnd t n := by
  have e : t + m - (⌊t + m⌋ : K) = t - (⌊t⌋ : K) := by rw [Int.floor_add_intCast]; push_cast; ring
  unfold coord
  rw [e]

/-- C66. Lookups at coordinates that differ by integers are the same, for colour and alpha. -/
theorem C66_periodic_lookup (rnd : K → K) (b : Bitmap K) (s t : K) (m n : Int) :
    b.eval rnd (s + m, t + n) = b.eval rnd (s, t) ∧ b.evalAlpha rnd (s + m, t + n) = b.evalAlpha rnd (s, t) := by
  unfold Bitmap.eval Bitmap.evalAlpha
  simp only [C66_periodic, and_self]

/-! ### Reads -/

theorem index_spec (b : Bitmap K) (hb : Fits b) (x y : Nat) (hx : (x : Int) < b.w) (hy : (y : Int) < b.h) :
    index b x y = some (b.w * y + x) ∧ b.w * y + x < b.w * b.h := by
  have hw := hb.w
  have h1 : b.w * (y + 1) ≤ b.w * b.h := by apply mul_le_mul_of_nonneg_left _ hw.le; omega
  have h0 : 0 ≤ b.w * (y : Int) := by positivity
  have h2 : b.w * b.h * 1 ≤ b.w * b.h * b.c := by
    apply mul_le_mul_of_nonneg_left _ (mul_nonneg hw.le hb.h.le)
    have := hb.c; omega
  have hs := hb.size
  have hlt : b.w * y + x < b.w * b.h := by nlinarith
  refine ⟨?_, hlt⟩
  unfold index
  rw [i32_some h0 (by omega), Option.bind_some, i32_some (by omega) (by omega)]

theorem channel_spec (b : Bitmap K) (hb : Fits b) (x y k : Nat) (hx : (x : Int) < b.w) (hy : (y : Int) < b.h) (hk : k ≤ 3) :
    channel b (b.w * y + x) k = texel b x y k := by
  have hi := (index_spec b hb x y hx hy).2
  have hc := hb.c
  have h0 : 0 ≤ b.w * (y : Int) + x := by have := hb.w; positivity
  have h1 : b.c * (b.w * y + x + 1) ≤ b.c * (b.w * b.h) := by apply mul_le_mul_of_nonneg_left _ hc.le; omega
  have hs := hb.size
  have hcm : b.c * (b.w * b.h) = b.w * b.h * b.c := by ring
  have h2 : 0 ≤ b.c * (b.w * y + x) := mul_nonneg hc.le h0
  unfold channel
  have hA : b.c * (b.w * y + x) + b.c ≤ b.w * b.h * b.c := by rw [← hcm]; nlinarith
  rw [i32_some h2 (by omega), Option.bind_some]
  have e : (b.c * (b.w * y + x) + k).toNat = (b.w.toNat * y + x) * b.c.toNat + k := by
    have ew : (b.w.toNat : Int) = b.w := Int.toNat_of_nonneg hb.w.le
    have ec : (b.c.toNat : Int) = b.c := Int.toNat_of_nonneg hc.le
    have : ((b.c * (b.w * y + x) + k).toNat : Int) = (((b.w.toNat * y + x) * b.c.toNat + k : Nat) : Int) := by
      rw [Int.toNat_of_nonneg (by omega)]
      push_cast
      rw [ew, ec]; ring
    exact_mod_cast this
  by_cases hov : b.c * (b.w * y + x) + k < 2 ^ 31
  · rw [i32_some (by omega) hov, Option.bind_some]
    unfold rd texel
    rw [if_neg (by omega), e]
  · have : i32 (b.c * (b.w * y + x) + k) = none := by
      unfold i32; rw [if_neg (by omega)]
    rw [this, Option.bind_none]
    unfold texel
    rw [← e]
    symm
    rw [List.getElem?_eq_none_iff]
    have := hb.len
    omega

theorem texel_some (b : Bitmap K) (hb : Fits b) (x y k : Nat) (hx : (x : Int) < b.w) (hy : (y : Int) < b.h) (hk : (k : Int) < b.c) : ∃ v, texel b x y k = some v := by
  have hi := (index_spec b hb x y hx hy).2
  have ew : (b.w.toNat : Int) = b.w := Int.toNat_of_nonneg hb.w.le
  have ec : (b.c.toNat : Int) = b.c := Int.toNat_of_nonneg hb.c.le
  unfold texel
  have h1 : b.c * (b.w * y + x + 1) ≤ b.c * (b.w * b.h) := by apply mul_le_mul_of_nonneg_left _ hb.c.le; omega
  have hl := hb.len
  have : (((b.w.toNat * y + x) * b.c.toNat + k : Nat) : Int) < (b.data.length : Int) := by
    push_cast
    rw [ew, ec, hl]
    nlinarith
  exact ⟨_, List.getElem?_eq_getElem (by exact_mod_cast this)⟩

/-- C66 (three or four channels). A colour lookup, at any coordinates and with any rounding, is defined and returns the first three channels of a pixel of the image; an alpha lookup in a four-channel image is defined and returns the fourth channel of the same pixel. Missing: images with one or two channels (see the negation). -/
theorem C66_lookup_partial (rnd : K → K) (hr : Rounds rnd) (b : Bitmap K) (hb : Fits b) (hc : 3 ≤ b.c) (s t : K) :
    ∃ x y : Nat, (x : Int) < b.w ∧ (y : Int) < b.h ∧ coord rnd s b.w = some (x : Int) ∧ coord rnd t b.h = some (y : Int) ∧
      (∃ v, b.eval rnd (s, t) = some v ∧ texel b x y 0 = some v.x ∧ texel b x y 1 = some v.y ∧ texel b x y 2 = some v.z) ∧
      (b.hasAlpha = true → ∃ a, b.evalAlpha rnd (s, t) = some a ∧ texel b x y 3 = some a) := by
  have hw := hb.w
  have hh := hb.h
  have hs := hb.size
  have hwh : 1 ≤ b.w * b.h := by nlinarith
  have hw2 : b.w < 2 ^ 31 := by nlinarith
  have hh2 : b.h < 2 ^ 31 := by nlinarith
  obtain ⟨x, ex, x0, x1, -⟩ := coord_spec rnd hr s b.w hw hw2
  obtain ⟨y, ey, y0, y1, -⟩ := coord_spec rnd hr t b.h hh hh2
  obtain ⟨x, rfl⟩ := Int.eq_ofNat_of_zero_le x0
  obtain ⟨y, rfl⟩ := Int.eq_ofNat_of_zero_le y0
  have hi := (index_spec b hb x y x1 y1).1
  refine ⟨x, y, x1, y1, ex, ey, ?_, ?_⟩
  · obtain ⟨r, er⟩ := texel_some b hb x y 0 x1 y1 (by push_cast; omega)
    obtain ⟨g, eg⟩ := texel_some b hb x y 1 x1 y1 (by push_cast; omega)
    obtain ⟨bl, eb⟩ := texel_some b hb x y 2 x1 y1 (by push_cast; omega)
    refine ⟨⟨r, g, bl⟩, ?_, er, eg, eb⟩
    unfold Bitmap.eval
    rw [ex, Option.bind_some, ey, Option.bind_some, hi, Option.bind_some]
    unfold color
    have c0 := channel_spec b hb x y 0 x1 y1 (by omega)
    have c1 := channel_spec b hb x y 1 x1 y1 (by omega)
    have c2 := channel_spec b hb x y 2 x1 y1 (by omega)
    rw [er] at c0; rw [eg] at c1; rw [eb] at c2
    norm_num at c0 c1 c2
    rw [c0, c1, c2]; rfl
  · intro ha
    have h4 : b.c = 4 := by simpa [Bitmap.hasAlpha] using ha
    obtain ⟨a, ea⟩ := texel_some b hb x y 3 x1 y1 (by push_cast; omega)
    refine ⟨a, ?_, ea⟩
    unfold Bitmap.evalAlpha
    rw [ex, Option.bind_some, ey, Option.bind_some, hi, Option.bind_some]
    have c3 := channel_spec b hb x y 3 x1 y1 (by omega)
    rw [ea] at c3
    norm_num at c3
    exact c3

/-- C66. Looking up a pixel by its coordinates is looking it up at any point of its cell, and is defined for all pixels of an image with three or four channels. -/
theorem C66_pixel (b : Bitmap K) (hb : Fits b) (x y : Nat) (hx : (x : Int) < b.w) (hy : (y : Int) < b.h) (s t : K)
    (hs : (x : K) / b.w ≤ s ∧ s < (x + 1 : K) / b.w) (ht : (y : K) / b.h ≤ t ∧ t < (y + 1 : K) / b.h) :
    b.eval (fun v => v) (s, t) = b.evalByPixelCoords x y := by
  have hw := hb.w
  have hh := hb.h
  have hsz := hb.size
  have hc := hb.c
  have hwh : 1 ≤ b.w * b.h := by nlinarith
  have hwc : b.w * b.h ≤ b.w * b.h * b.c := by nlinarith
  have hw2 : b.w < 2 ^ 31 := by nlinarith
  have hh2 : b.h < 2 ^ 31 := by nlinarith
  have one : ∀ (n : Int) (k : Nat) (r : K), 0 < n → (k : Int) < n → (k : K) / n ≤ r → r < (k + 1 : K) / n → Int.fract r = r := by
    intro n k r hn hk h1 h2
    have hn' : (0 : K) < n := by exact_mod_cast hn
    have h3 : (k + 1 : K) ≤ n := by exact_mod_cast (by omega : (k : Int) + 1 ≤ n)
    rw [Int.fract_eq_self]
    refine ⟨le_trans (div_nonneg (by exact_mod_cast Nat.zero_le k) hn'.le) h1, lt_of_lt_of_le h2 ?_⟩
    rw [div_le_one hn']; exact h3
  have ex : coord (fun v => v) s b.w = some (x : Int) := by
    rw [(C66_coordinate (fun v => v) Rounds.id s b.w hw hw2).2, one b.w x s hw hx hs.1 hs.2]
    exact_mod_cast hs
  have ey : coord (fun v => v) t b.h = some (y : Int) := by
    rw [(C66_coordinate (fun v => v) Rounds.id t b.h hh hh2).2, one b.h y t hh hy ht.1 ht.2]
    exact_mod_cast ht
  unfold Bitmap.eval Bitmap.evalByPixelCoords
  rw [ex, Option.bind_some, ey, Option.bind_some]

/-- C66 is false for grey-scale images (one channel, or two with alpha): the colour lookup in the last pixel of every such image reads beyond the data. -/
theorem C66_negation_channels (b : Bitmap K) (hb : Fits b) (hc : b.c < 3) (s t : K)
    (hs : ((b.w - 1 : Int) : K) / b.w ≤ s ∧ s < 1) (ht : ((b.h - 1 : Int) : K) / b.h ≤ t ∧ t < 1) : b.eval (fun v => v) (s, t) = none := by
  have hw := hb.w
  have hh := hb.h
  have hw' : (0 : K) < b.w := by exact_mod_cast hw
  have hh' : (0 : K) < b.h := by exact_mod_cast hh
  have ew : ((b.w.toNat - 1 : Nat) : Int) = b.w - 1 := by omega
  have eh : ((b.h.toNat - 1 : Nat) : Int) = b.h - 1 := by omega
  have ewK : ((b.w.toNat - 1 : Nat) : K) = ((b.w - 1 : Int) : K) := by rw [← ew]; simp
  have ehK : ((b.h.toNat - 1 : Nat) : K) = ((b.h - 1 : Int) : K) := by rw [← eh]; simp
  rw [C66_pixel b hb (b.w.toNat - 1) (b.h.toNat - 1) (by omega) (by omega) s t
    ⟨by rw [ewK]; exact hs.1, by rw [ewK]; push_cast; rw [sub_add_cancel, div_self hw'.ne']; exact hs.2⟩
    ⟨by rw [ehK]; exact ht.1, by rw [ehK]; push_cast; rw [sub_add_cancel, div_self hh'.ne']; exact ht.2⟩]
  have h2 := channel_spec b hb (b.w.toNat - 1) (b.h.toNat - 1) 2 (by omega) (by omega) (by omega)
  have hnone : texel b (b.w.toNat - 1) (b.h.toNat - 1) 2 = none := by
    unfold texel
    rw [List.getElem?_eq_none_iff]
    have hl := hb.len
    have : (b.data.length : Int) ≤ (((b.w.toNat * (b.h.toNat - 1) + (b.w.toNat - 1)) * b.c.toNat + 2 : Nat) : Int) := by
      have ew' : (b.w.toNat : Int) = b.w := Int.toNat_of_nonneg hw.le
      have ec' : (b.c.toNat : Int) = b.c := Int.toNat_of_nonneg hb.c.le
      rw [Nat.cast_add, Nat.cast_mul, Nat.cast_add, Nat.cast_mul, ew, eh, ew', ec', hl]
      push_cast
      nlinarith
    exact_mod_cast this
  rw [hnone] at h2
  unfold Bitmap.evalByPixelCoords
  rw [(index_spec b hb _ _ (by omega) (by omega)).1, Option.bind_some]
  unfold color
  norm_num at h2
  rw [h2]
  cases channel b (b.w * ((b.h.toNat - 1 : Nat) : Int) + ((b.w.toNat - 1 : Nat) : Int)) 0 <;>
    cases channel b (b.w * ((b.h.toNat - 1 : Nat) : Int) + ((b.w.toNat - 1 : Nat) : Int)) 1 <;> rfl

/-- C66 is false for grey-scale images: in a one-channel image the green and blue values come from the two pixels stored next. -/
theorem C66_negation_grey (b : Bitmap K) (hb : Fits b) (hc : b.c = 1) (x y : Nat) (hx : (x : Int) + 2 < b.w) (hy : (y : Int) < b.h) :
    ∃ v, b.evalByPixelCoords x y = some v ∧ texel b x y 0 = some v.x ∧ texel b (x + 1) y 0 = some v.y ∧ texel b (x + 2) y 0 = some v.z := by
  obtain ⟨r, er⟩ := texel_some b hb x y 0 (by omega) hy (by push_cast; omega)
  obtain ⟨g, eg⟩ := texel_some b hb (x + 1) y 0 (by push_cast; omega) hy (by push_cast; omega)
  obtain ⟨bl, eb⟩ := texel_some b hb (x + 2) y 0 (by push_cast; omega) hy (by push_cast; omega)
  refine ⟨⟨r, g, bl⟩, ?_, er, eg, eb⟩
  have c0 := channel_spec b hb x y 0 (by omega) hy (by omega)
  have c1 := channel_spec b hb x y 1 (by omega) hy (by omega)
  have c2 := channel_spec b hb x y 2 (by omega) hy (by omega)
  have e1 : texel b x y 1 = texel b (x + 1) y 0 := by
    unfold texel; rw [hc]; congr 1
  have e2 : texel b x y 2 = texel b (x + 2) y 0 := by
    unfold texel; rw [hc]; congr 1
  rw [er] at c0; rw [e1, eg] at c1; rw [e2, eb] at c2
  norm_num at c0 c1 c2
  unfold Bitmap.evalByPixelCoords
  rw [(index_spec b hb x y (by omega) hy).1, Option.bind_some]
  unfold color
  rw [c0, c1, c2]; rfl

/-- C66. What construct stores of a decoded image of w × h pixels with c channels fits, if the number of values is an int. -/
theorem C66_construct (w h c : Int) (px : List K) (hw : 0 < w) (hh : 0 < h) (hc : 0 < c) (hl : (px.length : Int) = w * h * c) (hs : w * h * c < 2 ^ 31) :
    ∃ b, Bitmap.construct (some (w, h, c, px)) = some b ∧ Fits b ∧ b.w = w ∧ b.h = h ∧ b.c = c ∧ b.data = px := by
  have h1 : 1 ≤ w * h := by nlinarith
  have h2 : w * h ≤ w * h * c := by nlinarith
  have hn : (w * h * c).toNat = px.length := by omega
  have e : px.take (w * h * c).toNat = px := by rw [hn, List.take_length]
  refine ⟨⟨w, h, c, px⟩, ?_, ⟨hw, hh, hc, hl, hs⟩, rfl, rfl, rfl, rfl⟩
  unfold Bitmap.construct
  rw [Option.bind_some]
  dsimp only
  rw [i32_some (by omega) (by omega), Option.bind_some, i32_some (by omega) hs, Option.bind_some, if_neg (by omega), e]

/-- C66. A constant texture has the same colour everywhere, and its alpha lookup is defined exactly when it reports an alpha value. -/
theorem C66_constant (b : Constant K) (t : K × K) : b.eval t = b.color ∧ ((∃ a, b.evalAlpha t = some a) ↔ b.hasAlpha = true) := by
  refine ⟨rfl, ?_⟩
  unfold Constant.evalAlpha Constant.hasAlpha
  cases b.alpha <;> simp

/-- A boundary of C66: pixel coordinates are not checked: column w is column 0 of the next row. -/
theorem C66_boundary_column (b : Bitmap K) (hb : Fits b) (y : Nat) (hy : (y : Int) + 1 < b.h) : b.evalByPixelCoords b.w y = b.evalByPixelCoords 0 (y + 1) := by
  have h1 := (index_spec b hb 0 y (by have := hb.w; push_cast; omega) (by omega))
  have h2 := (index_spec b hb 0 (y + 1) (by have := hb.w; push_cast; omega) (by push_cast; omega))
  have hs := hb.size
  have hw := hb.w
  have hc : b.w * b.h ≤ b.w * b.h * b.c := by
    have := hb.c; have : 0 ≤ b.w * b.h := mul_nonneg hb.w.le hb.h.le
    nlinarith
  have e : index b b.w y = index b 0 (y + 1) := by
    have e2 := h2.1
    push_cast at e2
    rw [e2]
    have p : b.w * ((y : Int) + 1) < b.w * b.h := by have := h2.2; push_cast at this; linarith
    have q : 0 ≤ b.w * (y : Int) := by positivity
    unfold index
    rw [i32_some q (by nlinarith), Option.bind_some, i32_some (by omega) (by nlinarith)]
    congr 1; ring
  unfold Bitmap.evalByPixelCoords
  rw [e]

/-! ### Concrete case: a 2 × 2 image with four channels, read at (-1/4, 5/8) -/

def exImg : Bitmap ℚ := ⟨2, 2, 4, [0, 1, 2, 3, 10, 11, 12, 13, 20, 21, 22, 23, 30, 31, 32, 33]⟩

example : Fits exImg := ⟨by decide, by decide, by decide, by decide, by decide⟩
example : exImg.hasAlpha = true := by decide
example : exImg.eval (fun v => v) (-1/4, 5/8) = some ⟨30, 31, 32⟩ := by decide +kernel
example : Fits (⟨2, 1, 1, [5, 6]⟩ : Bitmap ℚ) ∧ (⟨2, 1, 1, [5, 6]⟩ : Bitmap ℚ).c < 3 := ⟨⟨by decide, by decide, by decide, by decide, by decide⟩, by decide⟩
/-- A rounding that is not the identity: towards zero onto multiples of 1/8 (towards minus infinity here). -/
example : Rounds (fun v : ℚ => (⌊v * 8⌋ : ℚ) / 8) := by
  refine ⟨fun a b h => ?_, fun n _ _ => ?_⟩
  · have : ⌊a * 8⌋ ≤ ⌊b * 8⌋ := Int.floor_le_floor (by linarith)
    have : ((⌊a * 8⌋ : ℤ) : ℚ) ≤ (⌊b * 8⌋ : ℤ) := by exact_mod_cast this
    linarith
  · have : (n : ℚ) * 8 = ((n * 8 : ℤ) : ℚ) := by push_cast; ring
    rw [this, Int.floor_intCast]
    push_cast; ring

end LM.Texture
