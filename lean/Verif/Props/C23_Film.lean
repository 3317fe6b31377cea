import Verif.Model.Film
import Verif.Props.C17_Parallel
import Mathlib.Algebra.BigOperators.Group.List.Basic
import Mathlib.Algebra.Order.Floor.Ring
import Mathlib.Tactic.Linarith
import Mathlib.Tactic.FieldSimp
import Mathlib.Tactic.NormNum
import Mathlib.Tactic.Module
namespace LM.Film

section Raster
variable {K : Type} [Field K] [LinearOrder K] [IsStrictOrderedRing K] [FloorRing K]

theorem clampI_range (i : Int) (w : Nat) (hw : 0 < w) : 0 ≤ clampI i 0 ((w : Int) - 1) ∧ clampI i 0 ((w : Int) - 1) < w := by
  unfold clampI; omega

/-- C23 (partial). Whenever the conversion to int is defined the pixel lies inside the film. Missing: coordinates whose product with the film size does not
    fit into int, where the code's behaviour is undefined (see the negation). -/
theorem C23_inside_partial (rx ry : K) (w h : Nat) (hw : 0 < w) (hh : 0 < h) (x y : Int) (hp : rasterToPixel rx ry w h = some (x, y)) :
    0 ≤ x ∧ x < w ∧ 0 ≤ y ∧ y < h := by
  simp only [rasterToPixel, rasterCoord] at hp
  cases h1 : toInt (rx * (w : K)) <;> simp [h1] at hp
  cases h2 : toInt (ry * (h : K)) <;> simp [h2] at hp
  obtain ⟨rfl, rfl⟩ := hp
  exact ⟨(clampI_range _ w hw).1, (clampI_range _ w hw).2, (clampI_range _ h hh).1, (clampI_range _ h hh).2⟩

theorem toInt_of_small (x : K) (hlo : -(2:K)^31 ≤ x) (hhi : x < (2:K)^31) : ∃ i, toInt x = some i := by
  unfold toInt
  have key : -(2:Int)^31 ≤ (if 0 ≤ x then ⌊x⌋ else ⌈x⌉) ∧ (if 0 ≤ x then ⌊x⌋ else ⌈x⌉) < (2:Int)^31 := by
    split
    · next h0 =>
      constructor
      · have : (0 : Int) ≤ ⌊x⌋ := Int.floor_nonneg.mpr h0
        have : (0:Int) ≤ (2:Int)^31 := by norm_num
        omega
      · rw [Int.floor_lt]; norm_num at hhi ⊢; exact hhi
    · next h0 =>
      constructor
      · have h1 : (-(2:Int)^31 : Int) ≤ ⌈x⌉ := by
          rw [← Int.sub_one_lt_iff, Int.lt_ceil]
          push_cast
          linarith
        exact h1
      · have h1 : ⌈x⌉ ≤ 0 := by rw [Int.ceil_le]; push_cast; linarith
        have : (0:Int) < (2:Int)^31 := by norm_num
        omega
  exact ⟨_, if_pos key⟩

/-- C23 (partial). The conversion is defined, so the pixel exists, for all coordinates of magnitude below 2^31 / size. Missing: larger coordinates, where the conversion is undefined (C23_negation_undefined). -/
theorem C23_defined_partial (rx ry : K) (w h : Nat)
    (hx : -(2:K)^31 ≤ rx * w ∧ rx * w < (2:K)^31) (hy : -(2:K)^31 ≤ ry * h ∧ ry * h < (2:K)^31) :
    ∃ p, rasterToPixel rx ry w h = some p := by
  obtain ⟨i, hi⟩ := toInt_of_small _ hx.1 hx.2
  obtain ⟨j, hj⟩ := toInt_of_small _ hy.1 hy.2
  exact ⟨_, by simp [rasterToPixel, rasterCoord, hi, hj]; rfl⟩

theorem rasterCoord_unit (r : K) (w : Nat) (hw : w < 2 ^ 31) (h0 : 0 ≤ r) (h1 : r < 1) (hw0 : 0 < w) :
    rasterCoord r w = some ⌊r * (w : K)⌋ ∧ 0 ≤ ⌊r * (w : K)⌋ ∧ ⌊r * (w : K)⌋ < w := by
  have hwK : (0 : K) < (w : K) := by exact_mod_cast hw0
  have hn : 0 ≤ r * (w : K) := mul_nonneg h0 hwK.le
  have hf0 : 0 ≤ ⌊r * (w : K)⌋ := Int.floor_nonneg.mpr hn
  have hf1 : ⌊r * (w : K)⌋ < w := by
    rw [Int.floor_lt]; push_cast
    nlinarith
  refine ⟨?_, hf0, hf1⟩
  have hc : -(2:Int)^31 ≤ ⌊r * (w : K)⌋ ∧ ⌊r * (w : K)⌋ < (2:Int)^31 := by
    have : (w : Int) < 2 ^ 31 := by exact_mod_cast hw
    constructor <;> omega
  simp only [rasterCoord, toInt, if_pos hn, if_pos hc, Option.map_some, clampI, Option.some.injEq]
  omega

/-- C23. For positions in [0,1)² the pixel is (i, j) exactly when the position lies in the half-open cell of (i, j); so every pixel's cell maps to it. -/
theorem C23_cell (rx ry : K) (w h : Nat) (hw0 : 0 < w) (hh0 : 0 < h) (hw : w < 2 ^ 31) (hh : h < 2 ^ 31)
    (hx : 0 ≤ rx ∧ rx < 1) (hy : 0 ≤ ry ∧ ry < 1) (i j : Nat) :
    rasterToPixel rx ry w h = some ((i : Int), (j : Int)) ↔
      ((i : K) / w ≤ rx ∧ rx < ((i : K) + 1) / w) ∧ ((j : K) / h ≤ ry ∧ ry < ((j : K) + 1) / h) := by
  have one : ∀ (r : K) (n k : Nat), 0 < n → (⌊r * (n : K)⌋ = (k : Int) ↔ ((k : K) / n ≤ r ∧ r < ((k : K) + 1) / n)) := by
    intro r n k hn
    have hnK : (0 : K) < (n : K) := by exact_mod_cast hn
    rw [Int.floor_eq_iff, div_le_iff₀ hnK, lt_div_iff₀ hnK]
    push_cast
    rfl
  obtain ⟨ex, -, -⟩ := rasterCoord_unit rx w hw hx.1 hx.2 hw0
  obtain ⟨ey, -, -⟩ := rasterCoord_unit ry h hh hy.1 hy.2 hh0
  simp only [rasterToPixel, ex, ey]
  rw [← one rx w i hw0, ← one ry h j hh0]
  simp [bind, Option.bind]

/-- C23, negation. For every film there are finite raster positions for which the conversion to int is undefined. -/
theorem C23_negation_undefined (w h : Nat) (hw : 0 < w) : ∃ rx ry : K, rasterToPixel rx ry w h = none := by
  refine ⟨(2:K)^31, 0, ?_⟩
  have hwK : (1 : K) ≤ (w : K) := by exact_mod_cast hw
  have hp : (0 : K) < (2:K)^31 := by positivity
  have hn : 0 ≤ (2:K)^31 * (w : K) := by positivity
  have hbig : ¬ ⌊(2:K)^31 * (w : K)⌋ < (2:Int)^31 := by
    rw [Int.floor_lt]; push_cast
    nlinarith
  simp only [rasterToPixel, rasterCoord, toInt, if_pos hn]
  rw [if_neg (fun h => hbig h.2)]
  rfl
end Raster

example : rasterToPixel (1/2 : ℚ) (99/100) 4 3 = some (2, 2) := by
  rw [show ((2 : Int), (2 : Int)) = (((2 : Nat) : Int), ((2 : Nat) : Int)) from rfl,
    C23_cell _ _ _ _ (by norm_num) (by norm_num) (by norm_num) (by norm_num) (by norm_num) (by norm_num)]
  norm_num

/-! ### Sequential operations -/

theorem modifyAt_get {V : Type} (d d' : List V) (i : Nat) (f : V → V) (h : modifyAt d i f = some d') :
    d'.length = d.length ∧ d'[i]? = (d[i]?).map f ∧ ∀ j, j ≠ i → d'[j]? = d[j]? := by
  unfold modifyAt at h
  split at h
  · cases h
    refine ⟨by simp, by simp, fun j hj => ?_⟩
    have hij : ¬ i = j := fun h => hj h.symm
    rw [List.getElem?_modify]
    simp [hij]
  · cases h

section Mean
variable {K : Type} [Field K] [CharZero K]

/-- Specification of a history: feeding samples with indices k, k+1, ... -/
def feed (b : Bitmap (V3 K)) (x y : Nat) : Nat → List (V3 K) → Option (Bitmap (V3 K))
  | _, [] => some b
  | k, v :: vs => (incAve b x y k v).bind (fun b' => feed b' x y (k + 1) vs)

theorem feed_spec (vs : List (V3 K)) : ∀ (b : Bitmap (V3 K)) (x y k : Nat) (c : V3 K), b.data[y * b.w + x]? = some c →
    ∃ b', feed b x y k vs = some b' ∧ b'.w = b.w ∧ b'.h = b.h ∧ b'.data.length = b.data.length ∧
      (∀ j, j ≠ y * b.w + x → b'.data[j]? = b.data[j]?) ∧
      ∃ r, b'.data[y * b.w + x]? = some r ∧ ((k : K) + vs.length) • r = (k : K) • c + vs.sum := by
  induction vs with
  | nil => intro b x y k c hc; exact ⟨b, rfl, rfl, rfl, rfl, fun _ _ => rfl, c, hc, by simp⟩
  | cons v vs ih =>
    intro b x y k c hc
    have hlt : y * b.w + x < b.data.length := by
      by_contra hn
      rw [List.getElem?_eq_none (by omega)] at hc; cases hc
    have hm : modifyAt b.data (y * b.w + x) (fun curr => curr + ((k : K) + 1)⁻¹ • (v - curr)) =
        some (b.data.modify (y * b.w + x) (fun curr => curr + ((k : K) + 1)⁻¹ • (v - curr))) := if_pos hlt
    obtain ⟨hl, hi, ho⟩ := modifyAt_get _ _ _ _ hm
    rw [hc] at hi
    obtain ⟨b', h1, h2, h3, h4, h5, r, h6, h7⟩ :=
      ih { b with data := b.data.modify (y * b.w + x) (fun curr => curr + ((k : K) + 1)⁻¹ • (v - curr)) } x y (k + 1) _ hi
    refine ⟨b', ?_, h2, h3, by rw [h4]; exact hl, fun j hj => by rw [h5 j hj]; exact ho j hj, r, h6, ?_⟩
    · simp only [feed, incAve, updatePixel, hm, Option.map_some, Option.bind_some, h1]
    · have hk : (k : K) + 1 ≠ 0 := by exact_mod_cast Nat.succ_ne_zero k
      have e1 : ((k : K) + ((v :: vs).length : Nat)) = ((k + 1 : Nat) : K) + (vs.length : Nat) := by push_cast; simp; ring
      rw [e1, h7, List.sum_cons]
      ext <;> simp <;> field_simp <;> ring

/-- C24. Feeding samples v0..v(n-1), n ≥ 1, with indices 0..n-1 to inc_ave at a pixel of the film leaves the exact mean there, whatever was there before,
    and leaves all other pixels and the size alone. -/
theorem C24_mean (b : Bitmap (V3 K)) (x y : Nat) (hxy : y * b.w + x < b.data.length) (vs : List (V3 K)) (hne : vs ≠ []) :
    ∃ b', feed b x y 0 vs = some b' ∧ b'.w = b.w ∧ b'.h = b.h ∧
      b'.data[y * b.w + x]? = some ((vs.length : K)⁻¹ • vs.sum) ∧ ∀ j, j ≠ y * b.w + x → b'.data[j]? = b.data[j]? := by
  obtain ⟨b', h1, h2, h3, _, h5, r, h6, h7⟩ := feed_spec vs b x y 0 _ (List.getElem?_eq_getElem hxy)
  refine ⟨b', h1, h2, h3, ?_, h5⟩
  have hn : (vs.length : K) ≠ 0 := by
    have : vs.length ≠ 0 := fun h => hne (List.length_eq_zero_iff.mp h)
    exact_mod_cast this
  have h8 : (vs.length : K) • r = vs.sum := by
    have := h7
    simp only [Nat.cast_zero, zero_add, zero_smul] at this
    exact this
  rw [h6, ← h8, smul_smul, inv_mul_cancel₀ hn, one_smul]
end Mean

example : ∃ b', feed (construct (K := ℚ) 2 2) 1 1 0 [⟨1, 0, 0⟩, ⟨3, 0, 0⟩] = some b' ∧ b'.data[3]? = some ⟨2, 0, 0⟩ := by
  obtain ⟨b', h1, _, _, h4, _⟩ := C24_mean (construct (K := ℚ) 2 2) 1 1 (by simp [construct]) [⟨1, 0, 0⟩, ⟨3, 0, 0⟩] (by simp)
  refine ⟨b', h1, ?_⟩
  have e : (1 * (construct (K := ℚ) 2 2).w + 1) = 3 := rfl
  rw [e] at h4
  rw [h4]
  congr 1
  ext <;> simp <;> norm_num

section Arith
variable {K : Type} [Field K]

/-- A film as constructed by the API. -/
def WF {V : Type} (b : Bitmap V) : Prop := b.data.length = b.w * b.h

theorem pixel_lt {w h x y : Nat} (hx : x < w) (hy : y < h) : y * w + x < w * h := by
  calc y * w + x < y * w + w := by omega
    _ = (y + 1) * w := by rw [Nat.succ_mul]
    _ ≤ h * w := Nat.mul_le_mul_right _ hy
    _ = w * h := Nat.mul_comm _ _

theorem pixel_inj {w x y x' y' : Nat} (hx : x < w) (hx' : x' < w) (h : y * w + x = y' * w + x') : x = x' ∧ y = y' := by
  have h1 := congrArg (· % w) h
  have h2 := congrArg (· / w) h
  simp only [Nat.mul_comm _ w, Nat.mul_add_mod, Nat.mod_eq_of_lt hx, Nat.mod_eq_of_lt hx'] at h1
  simp only [Nat.mul_comm _ w, Nat.mul_add_div (by omega : 0 < w), Nat.div_eq_of_lt hx, Nat.div_eq_of_lt hx'] at h2
  exact ⟨h1, by omega⟩

/-- Specification: the value of pixel (x, y). -/
def pixel {V : Type} (b : Bitmap V) (x y : Nat) : Option V := b.data[y * b.w + x]?

/-- C25. A constructed film is w × h black pixels, and so is a cleared one. -/
theorem C25_clear (b : Bitmap (V3 K)) (x y : Nat) (hx : x < b.w) (hy : y < b.h) :
    WF (construct (K := K) b.w b.h) ∧ WF (clear b) ∧ (clear b).w = b.w ∧ (clear b).h = b.h ∧ pixel (clear b) x y = some 0 ∧
    pixel (construct (K := K) b.w b.h) x y = some 0 := by
  have := pixel_lt hx hy
  refine ⟨by simp [WF, construct], by simp [WF, clear], rfl, rfl, ?_, ?_⟩
  · simp [pixel, clear, List.getElem?_replicate, this]
  · simp [pixel, construct, List.getElem?_replicate, this]

/-- C25. Writing, splatting or updating a pixel of the film succeeds, changes that pixel as told and no other. -/
theorem C25_write (b : Bitmap (V3 K)) (hb : WF b) (x y : Nat) (hx : x < b.w) (hy : y < b.h) (v : V3 K) (g : V3 K → V3 K) :
    (∃ b', setPixel b x y v = some b' ∧ WF b' ∧ pixel b' x y = some v ∧
      ∀ x' y', x' < b.w → (x', y') ≠ (x, y) → pixel b' x' y' = pixel b x' y') ∧
    (∃ b', splatPixel b x y v = some b' ∧ WF b' ∧ pixel b' x y = (pixel b x y).map (· + v) ∧
      ∀ x' y', x' < b.w → (x', y') ≠ (x, y) → pixel b' x' y' = pixel b x' y') ∧
    (∃ b', updatePixel b x y g = some b' ∧ WF b' ∧ pixel b' x y = (pixel b x y).map g ∧
      ∀ x' y', x' < b.w → (x', y') ≠ (x, y) → pixel b' x' y' = pixel b x' y') := by
  have hlt : y * b.w + x < b.data.length := by rw [hb]; exact pixel_lt hx hy
  have gen : ∀ f : V3 K → V3 K, ∃ b', (modifyAt b.data (y * b.w + x) f).map (fun d => { b with data := d }) = some b' ∧ WF b' ∧
      pixel b' x y = (pixel b x y).map f ∧ ∀ x' y', x' < b.w → (x', y') ≠ (x, y) → pixel b' x' y' = pixel b x' y' := by
    intro f
    have hm : modifyAt b.data (y * b.w + x) f = some (b.data.modify (y * b.w + x) f) := if_pos hlt
    obtain ⟨h1, h2, h3⟩ := modifyAt_get _ _ _ _ hm
    refine ⟨{ b with data := b.data.modify (y * b.w + x) f }, by simp [hm], ?_, h2, ?_⟩
    · unfold WF at hb ⊢; rw [← hb]; exact h1
    · intro x' y' hx' hne
      apply h3
      intro heq
      obtain ⟨rfl, rfl⟩ := pixel_inj hx' hx heq
      exact hne rfl
  refine ⟨?_, gen _, gen g⟩
  obtain ⟨b', h1, h2, h3, h4⟩ := gen (fun _ => v)
  refine ⟨b', h1, h2, ?_, h4⟩
  rw [h3, pixel, List.getElem?_eq_getElem hlt]; rfl

theorem foldlM_modify {V : Type} (f : Nat → V → Option V) : ∀ (order : List Nat) (d : List V), order.Nodup → (∀ i ∈ order, i < d.length) →
    (∀ i ∈ order, ∀ c, d[i]? = some c → (f i c).isSome) →
    ∃ d', order.foldlM (fun d i => (d[i]?).bind (fun c => (f i c).bind (fun c' => modifyAt d i (fun _ => c')))) d = some d' ∧ d'.length = d.length ∧
      (∀ i ∈ order, d'[i]? = (d[i]?).bind (f i)) ∧ ∀ i, i ∉ order → d'[i]? = d[i]? := by
  intro order
  induction order with
  | nil => intro d _ _ _; exact ⟨d, rfl, rfl, by simp, fun _ _ => rfl⟩
  | cons i order ih =>
    intro d hnd hlt hdef
    obtain ⟨hni, hnd'⟩ := List.nodup_cons.mp hnd
    have hi := hlt i (by simp)
    have hdi : d[i]? = some d[i] := List.getElem?_eq_getElem hi
    obtain ⟨c', hc'⟩ := Option.isSome_iff_exists.mp (hdef i (by simp) _ hdi)
    have hm : modifyAt d i (fun _ => c') = some (d.modify i (fun _ => c')) := if_pos hi
    obtain ⟨h1, h2, h3⟩ := modifyAt_get _ _ _ _ hm
    have hne : ∀ j ∈ order, j ≠ i := fun j hj h => hni (h ▸ hj)
    obtain ⟨d', e1, e2, e3, e4⟩ := ih (d.modify i (fun _ => c')) hnd' (fun j hj => by rw [h1]; exact hlt j (by simp [hj]))
      (fun j hj c hc => by rw [h3 j (hne j hj)] at hc; exact hdef j (by simp [hj]) c hc)
    refine ⟨d', ?_, by omega, ?_, ?_⟩
    · simp only [List.foldlM_cons, hdi, Option.bind_some, hc', hm]
      exact e1
    · intro j hj
      rcases List.mem_cons.mp hj with rfl | hj
      · rw [e4 j hni, h2, hdi]; simp [hc']
      · rw [e3 j hj, h3 j (hne j hj)]
    · intro j hj
      simp only [List.mem_cons, not_or] at hj
      rw [e4 j hj.2, h3 j hj.1]

theorem modify_eq_bind {V : Type} (d : List V) (i : Nat) (f : V → V) :
    modifyAt d i f = (d[i]?).bind (fun c => modifyAt d i (fun _ => f c)) := by
  unfold modifyAt
  split
  · next h =>
    rw [List.getElem?_eq_getElem h]
    simp only [Option.bind_some, Option.some.injEq]
    apply List.ext_getElem? 
    intro j
    rw [List.getElem?_modify, List.getElem?_modify]
    by_cases hij : i = j
    · subst hij; simp [List.getElem?_eq_getElem h]
    · simp [hij]
  · next h => rw [List.getElem?_eq_none (by omega)]; rfl

/-- C25. rescale multiplies every pixel by s, whatever the order in which the parallel loop runs. -/
theorem C25_rescale (b : Bitmap (V3 K)) (hb : WF b) (s : K) (order : List Nat) (ho : order.Perm (List.range (b.w * b.h))) :
    rescale b s order = some { b with data := b.data.map (fun c => s • c) } := by
  have hmem : ∀ i, i ∈ order ↔ i < b.w * b.h := fun i => by rw [ho.mem_iff, List.mem_range]
  obtain ⟨d', e1, e2, e3, e4⟩ := foldlM_modify (fun _ c => some (s • c)) order b.data (ho.nodup_iff.mpr List.nodup_range)
    (fun i hi => by rw [hb]; exact (hmem i).mp hi) (fun _ _ _ _ => rfl)
  have hf : (fun d i => modifyAt d i (fun c => s • c)) =
      (fun (d : List (V3 K)) (i : Nat) => (d[i]?).bind (fun c => (some (s • c)).bind (fun c' => modifyAt d i (fun _ => c')))) := by
    funext d i
    rw [modify_eq_bind]; rfl
  rw [rescale, hf, e1]
  simp only [Option.map_some, Option.some.injEq, Bitmap.mk.injEq, true_and]
  apply List.ext_getElem?
  intro i
  by_cases hi : i < b.w * b.h
  · rw [e3 i ((hmem i).mpr hi), List.getElem?_map]
    cases b.data[i]? <;> rfl
  · rw [List.getElem?_eq_none (by unfold WF at hb; omega), List.getElem?_eq_none (by unfold WF at hb; simp; omega)]

/-- C25. The order of an actual parallel run qualifies. -/
theorem C25_rescale_parallel (b : Bitmap (V3 K)) (hb : WF b) (s : K) (threads interval : Nat) (ht : 0 < threads) (count : Nat → Nat) (sched : List Nat)
    (hs : ∀ t ∈ sched, t < threads)
    (hd : Parallel.Done ⟨b.w * b.h, threads, interval, fun _ => false⟩ (Parallel.run ⟨b.w * b.h, threads, interval, fun _ => false⟩ (Parallel.init count) sched)) :
    rescale b s (Parallel.run ⟨b.w * b.h, threads, interval, fun _ => false⟩ (Parallel.init count) sched).calls =
      some { b with data := b.data.map (fun c => s • c) } :=
  C25_rescale b hb s _ (Parallel.C17_each_index_once ⟨b.w * b.h, threads, interval, fun _ => false⟩ count sched hs ht (fun _ _ => rfl) hd).1

/-- C25. accum of a film of another size is rejected and changes nothing; of the same size it adds pixel by pixel. -/
theorem C25_accum (b o : Bitmap (V3 K)) (hb : WF b) (ho : WF o) :
    ((b.w ≠ o.w ∨ b.h ≠ o.h) → accum b o = some (false, b)) ∧
    (b.w = o.w → b.h = o.h → ∃ b', accum b o = some (true, b') ∧ WF b' ∧ b'.w = b.w ∧ b'.h = b.h ∧
      ∀ x y, x < b.w → y < b.h → ∃ c v, pixel b x y = some c ∧ pixel o x y = some v ∧ pixel b' x y = some (c + v)) := by
  refine ⟨fun h => by simp only [accum, if_pos h], fun hw hh => ?_⟩
  obtain ⟨d', e1, e2, e3, e4⟩ := foldlM_modify (fun i c => (o.data[i]?).map (fun v => c + v)) (List.range (b.w * b.h)) b.data List.nodup_range
    (fun i hi => by rw [hb]; exact List.mem_range.mp hi)
    (fun i hi c _ => by
      have : i < o.data.length := by rw [ho, ← hw, ← hh]; exact List.mem_range.mp hi
      rw [List.getElem?_eq_getElem this]; rfl)
  have hf : (fun (d : List (V3 K)) (i : Nat) => (o.data[i]?).bind (fun v => modifyAt d i (fun c => c + v))) =
      (fun d i => (d[i]?).bind (fun c => ((o.data[i]?).map (fun v => c + v)).bind (fun c' => modifyAt d i (fun _ => c')))) := by
    funext d i
    cases hv : o.data[i]? with
    | none => cases hd : d[i]? <;> rfl
    | some v => simp only [Option.bind_some, Option.map_some]; rw [modify_eq_bind]
  refine ⟨{ b with data := d' }, ?_, ?_, rfl, rfl, ?_⟩
  · have hne : ¬ (b.w ≠ o.w ∨ b.h ≠ o.h) := by simp [hw, hh]
    simp only [accum, if_neg hne]
    rw [hf, e1]; rfl
  · unfold WF at hb ⊢; simp only; omega
  · intro x y hx hy
    have hlt := pixel_lt hx hy
    have hlo : y * b.w + x < o.data.length := by rw [ho, ← hw, ← hh]; exact hlt
    have hlb : y * b.w + x < b.data.length := by rw [hb]; exact hlt
    refine ⟨b.data[y * b.w + x], o.data[y * b.w + x], List.getElem?_eq_getElem hlb, ?_, ?_⟩
    · simp only [pixel, ← hw]; exact List.getElem?_eq_getElem hlo
    · simp only [pixel]
      rw [e3 _ (List.mem_range.mpr hlt), List.getElem?_eq_getElem hlb, List.getElem?_eq_getElem hlo]
      rfl
end Arith

example : WF (construct (K := ℚ) 3 2) := by simp [WF, construct]

end LM.Film
