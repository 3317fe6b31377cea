import Verif.Model.RenderFilm
import Verif.Props.C20_Scheduler
import Verif.Props.C23_Film
import Mathlib.MeasureTheory.Measure.Lebesgue.Basic
/-
  C69: the normalisation of the accumulated contributions by the number of samples.
-/
namespace LM.RenderFilm
open LM LM.Film LM.Scheduler

/-! ### Specification -/

/-- The raster position lies in the half-open cell of pixel (x, y). -/
def InCell (rp : ℝ × ℝ) (w h x y : ℕ) : Prop := ((x : ℝ) / w ≤ rp.1 ∧ rp.1 < ((x : ℝ) + 1) / w) ∧ ((y : ℝ) / h ≤ rp.2 ∧ rp.2 < ((y : ℝ) + 1) / h)
/-- A raster position on the film. -/
def OnFilm (rp : ℝ × ℝ) : Prop := (0 ≤ rp.1 ∧ rp.1 < 1) ∧ (0 ≤ rp.2 ∧ rp.2 < 1)

open Classical in
/-- What the splats add to pixel (x, y). -/
noncomputable def inPixel (w h x y : ℕ) (l : Splats) : V3 ℝ := ((l.filter (fun s => InCell s.1 w h x y)).map (·.2)).sum

/-! ### Lemmas -/

theorem inPixel_append (w h x y : ℕ) (l l' : Splats) : inPixel w h x y (l ++ l') = inPixel w h x y l + inPixel w h x y l' := by
  simp [inPixel]

theorem splatAt_spec (b : Bitmap (V3 ℝ)) (hb : WF b) (hw0 : 0 < b.w) (hh0 : 0 < b.h) (hw : b.w < 2 ^ 31) (hh : b.h < 2 ^ 31) (s : (ℝ × ℝ) × V3 ℝ) (hs : OnFilm s.1) :
    ∃ b', splatAt b s = some b' ∧ WF b' ∧ b'.w = b.w ∧ b'.h = b.h ∧ ∀ x y, x < b.w → y < b.h → pixel b' x y = (pixel b x y).map (· + inPixel b.w b.h x y [s]) := by
  have hwr : (0 : ℝ) < b.w := by exact_mod_cast hw0
  have hhr : (0 : ℝ) < b.h := by exact_mod_cast hh0
  obtain ⟨i, hi⟩ : ∃ i : ℕ, i = ⌊s.1.1 * b.w⌋₊ := ⟨_, rfl⟩
  obtain ⟨j, hj⟩ : ∃ j : ℕ, j = ⌊s.1.2 * b.h⌋₊ := ⟨_, rfl⟩
  have hx0 : 0 ≤ s.1.1 * b.w := mul_nonneg hs.1.1 hwr.le
  have hy0 : 0 ≤ s.1.2 * b.h := mul_nonneg hs.2.1 hhr.le
  have cell : InCell s.1 b.w b.h i j := by
    have a1 := (Nat.floor_eq_iff hx0).mp hi.symm
    have a2 := (Nat.floor_eq_iff hy0).mp hj.symm
    refine ⟨⟨?_, ?_⟩, ⟨?_, ?_⟩⟩
    · rw [div_le_iff₀ hwr]; exact a1.1
    · rw [lt_div_iff₀ hwr]; exact a1.2
    · rw [div_le_iff₀ hhr]; exact a2.1
    · rw [lt_div_iff₀ hhr]; exact a2.2
  have uniq : ∀ x y, InCell s.1 b.w b.h x y → x = i ∧ y = j := by
    intro x y hc
    constructor
    · rw [hi]; symm
      rw [Nat.floor_eq_iff hx0]
      exact ⟨(div_le_iff₀ hwr).mp hc.1.1, (lt_div_iff₀ hwr).mp hc.1.2⟩
    · rw [hj]; symm
      rw [Nat.floor_eq_iff hy0]
      exact ⟨(div_le_iff₀ hhr).mp hc.2.1, (lt_div_iff₀ hhr).mp hc.2.2⟩
  have hr := (C23_cell s.1.1 s.1.2 b.w b.h hw0 hh0 hw hh hs.1 hs.2 i j).mpr cell
  have hil : i < b.w := by
    rw [hi, Nat.floor_lt hx0]; nlinarith [hs.1.2]
  have hjl : j < b.h := by
    rw [hj, Nat.floor_lt hy0]; nlinarith [hs.2.2]
  obtain ⟨b', e, h1, h2, h3⟩ := (C25_write b hb i j hil hjl s.2 id).2.1
  have hdim : b'.w = b.w ∧ b'.h = b.h := by
    unfold splatPixel at e
    obtain ⟨d, _, rfl⟩ := Option.map_eq_some_iff.mp e
    exact ⟨rfl, rfl⟩
  refine ⟨b', by simp [splatAt, hr, e], h1, hdim.1, hdim.2, ?_⟩
  intro x y hx hy
  by_cases hxy : (x, y) = (i, j)
  · cases hxy
    rw [h2]
    simp [inPixel, cell]
  · have : ¬ InCell s.1 b.w b.h x y := fun hc => hxy (by rw [(uniq x y hc).1, (uniq x y hc).2])
    rw [h3 x y hx hxy]
    simp [inPixel, this]

theorem splats_spec (l : Splats) : ∀ (b : Bitmap (V3 ℝ)), WF b → 0 < b.w → 0 < b.h → b.w < 2 ^ 31 → b.h < 2 ^ 31 → (∀ s ∈ l, OnFilm s.1) →
    ∃ b', l.foldlM splatAt b = some b' ∧ WF b' ∧ b'.w = b.w ∧ b'.h = b.h ∧ ∀ x y, x < b.w → y < b.h → pixel b' x y = (pixel b x y).map (· + inPixel b.w b.h x y l) := by
  induction l with
  | nil => intro b hb _ _ _ _ _; exact ⟨b, rfl, hb, rfl, rfl, fun x y _ _ => by simp [inPixel]⟩
  | cons s l ih =>
    intro b hb hw0 hh0 hw hh hs
    obtain ⟨b1, e1, w1, dw, dh, p1⟩ := splatAt_spec b hb hw0 hh0 hw hh s (hs s (by simp))
    obtain ⟨b2, e2, w2, dw2, dh2, p2⟩ := ih b1 w1 (dw ▸ hw0) (dh ▸ hh0) (dw ▸ hw) (dh ▸ hh) (fun t ht => hs t (List.mem_cons_of_mem _ ht))
    refine ⟨b2, by rw [List.foldlM_cons, e1]; exact e2, w2, dw2.trans dw, dh2.trans dh, ?_⟩
    intro x y hx hy
    rw [p2 x y (dw ▸ hx) (dh ▸ hy), p1 x y hx hy, dw, dh, show s :: l = [s] ++ l from rfl, inPixel_append]
    cases pixel b x y <;> simp [add_assoc]

theorem calls_spec (sample : ℕ → ℕ → Splats) (calls : List (ℕ × ℕ)) : ∀ (b : Bitmap (V3 ℝ)), WF b → 0 < b.w → 0 < b.h → b.w < 2 ^ 31 → b.h < 2 ^ 31 → (∀ c ∈ calls, ∀ s ∈ sample c.1 c.2, OnFilm s.1) →
    ∃ b', calls.foldlM (fun b c => (sample c.1 c.2).foldlM splatAt b) b = some b' ∧ WF b' ∧ b'.w = b.w ∧ b'.h = b.h ∧
      ∀ x y, x < b.w → y < b.h → pixel b' x y = (pixel b x y).map (· + (calls.map (fun c => inPixel b.w b.h x y (sample c.1 c.2))).sum) := by
  induction calls with
  | nil => intro b hb _ _ _ _ _; exact ⟨b, rfl, hb, rfl, rfl, fun x y _ _ => by simp⟩
  | cons c l ih =>
    intro b hb hw0 hh0 hw hh hs
    obtain ⟨b1, e1, w1, dw, dh, p1⟩ := splats_spec (sample c.1 c.2) b hb hw0 hh0 hw hh (hs c (by simp))
    obtain ⟨b2, e2, w2, dw2, dh2, p2⟩ := ih b1 w1 (dw ▸ hw0) (dh ▸ hh0) (dw ▸ hw) (dh ▸ hh) (fun t ht => hs t (List.mem_cons_of_mem _ ht))
    refine ⟨b2, by rw [List.foldlM_cons, e1]; exact e2, w2, dw2.trans dw, dh2.trans dh, ?_⟩
    intro x y hx hy
    rw [p2 x y (dw ▸ hx) (dh ▸ hy), p1 x y hx hy, dw, dh, List.map_cons, List.sum_cons]
    cases pixel b x y <;> simp [add_assoc]

/-- The film after render(): the factor times the sum of what the calls add to each pixel. -/
theorem render_spec (b : Bitmap (V3 ℝ)) (pixelMode : Bool) (run : ℕ × List (ℕ × ℕ)) (sample : ℕ → ℕ → Splats) (order : List ℕ) (hw0 : 0 < b.w) (hh0 : 0 < b.h) (hw : b.w < 2 ^ 31) (hh : b.h < 2 ^ 31)
    (hs : ∀ c ∈ run.2, ∀ s ∈ sample c.1 c.2, OnFilm s.1) (ho : order.Perm (List.range (b.w * b.h))) (k : ℝ) (hk : factor pixelMode b.w b.h run.1 = some k) :
    ∃ f, renderFilm b pixelMode run sample order = some f ∧ f.w = b.w ∧ f.h = b.h ∧ WF f ∧
      ∀ x y, x < b.w → y < b.h → pixel f x y = some (k • (run.2.map (fun c => inPixel b.w b.h x y (sample c.1 c.2))).sum) := by
  have hcl : WF (clear b) := by simp [WF, clear]
  obtain ⟨b', e, hwf, dw, dh, hp⟩ := calls_spec sample run.2 (clear b) hcl hw0 hh0 hw hh hs
  have dw' : b'.w = b.w := dw
  have dh' : b'.h = b.h := dh
  have hr := C25_rescale b' hwf k order (by rw [dw', dh']; exact ho)
  refine ⟨{ b' with data := b'.data.map (fun c => k • c) }, ?_, dw', dh', ?_, ?_⟩
  · simp only [renderFilm, e, hk, Option.bind_eq_bind, Option.bind_some, hr]
  · unfold WF at hwf ⊢; simp [hwf]
  · intro x y hx hy
    have h0 := (C25_clear b x y hx hy).2.2.2.2.1
    have h1 := hp x y hx hy
    have h2 : pixel { b' with data := b'.data.map (fun c => k • c) } x y = (pixel b' x y).map (fun c => k • c) := by
      simp [pixel]
    rw [h2, h1, h0]
    simp
    rfl

/-- Everything the splats of a sample carry. -/
noncomputable def total (l : Splats) : V3 ℝ := (l.map (·.2)).sum

/-- The calls of a run in which every one of n pixels gets r samples. -/
theorem parts_perm (n : ℕ) (parts : List (List (ℕ × ℕ))) (h : ∀ j (hj : j < parts.length), parts[j].Perm ((List.range n).map (fun pixel => (pixel, j)))) :
    parts.flatten.Perm (List.range n ×ˢ List.range parts.length) := by
  have hn : ∀ j (hj : j < parts.length), parts[j].Nodup := fun j hj =>
    (h j hj).nodup_iff.mpr (List.Nodup.map (fun a b e => (Prod.mk.injEq _ _ _ _ ▸ e).1) List.nodup_range)
  have hm : ∀ j (hj : j < parts.length) (c : ℕ × ℕ), c ∈ parts[j] ↔ c.1 < n ∧ c.2 = j := by
    intro j hj c
    rw [(h j hj).mem_iff]
    simp only [List.mem_map, List.mem_range]
    constructor
    · rintro ⟨a, ha, rfl⟩; exact ⟨ha, rfl⟩
    · rintro ⟨ha, rfl⟩; exact ⟨c.1, ha, rfl⟩
  rw [List.perm_ext_iff_of_nodup]
  · rintro ⟨p, q⟩
    simp only [List.mem_flatten, List.mem_product, List.mem_range]
    constructor
    · rintro ⟨l, hl, hc⟩
      obtain ⟨j, hj, rfl⟩ := List.mem_iff_getElem.mp hl
      obtain ⟨h1, h2⟩ := (hm j hj _).mp hc
      exact ⟨h1, by simp only at h2; omega⟩
    · rintro ⟨h1, h2⟩
      exact ⟨parts[q], List.getElem_mem h2, (hm q h2 _).mpr ⟨h1, rfl⟩⟩
  · rw [List.nodup_flatten]
    refine ⟨?_, ?_⟩
    · intro l hl
      obtain ⟨j, hj, rfl⟩ := List.mem_iff_getElem.mp hl
      exact hn j hj
    · rw [List.pairwise_iff_getElem]
      intro i j hi hj hij c h1 h2
      have a := ((hm i hi c).mp h1).2
      have b := ((hm j hj c).mp h2).2
      omega
  · exact List.nodup_range.product List.nodup_range

theorem cell_iff (w h x y p : ℕ) (rp : ℝ × ℝ) (hx : x < w) (hy : y < h) (hp : p < w * h) (hc : InCell rp w h (p % w) (p / w)) : InCell rp w h x y ↔ p = y * w + x := by
  have hwr : (0 : ℝ) < w := by exact_mod_cast (by omega : 0 < w)
  have hhr : (0 : ℝ) < h := by exact_mod_cast (by omega : 0 < h)
  have one : ∀ (n a b : ℕ) (r : ℝ), (0 : ℝ) < n → (a : ℝ) / n ≤ r ∧ r < ((a : ℝ) + 1) / n → (b : ℝ) / n ≤ r ∧ r < ((b : ℝ) + 1) / n → a = b := by
    intro n a b r hn h1 h2
    rw [div_le_iff₀ hn, lt_div_iff₀ hn] at h1 h2
    have h3 : (a : ℝ) < b + 1 := by linarith
    have h4 : (b : ℝ) < a + 1 := by linarith
    have h3 : a < b + 1 := by exact_mod_cast h3
    have h4 : b < a + 1 := by exact_mod_cast h4
    omega
  constructor
  · intro hxy
    have h1 := one w _ _ _ hwr hc.1 hxy.1
    have h2 := one h _ _ _ hhr hc.2 hxy.2
    rw [← h1, ← h2, mul_comm]; exact (Nat.div_add_mod p w).symm
  · rintro rfl
    have h1 : (y * w + x) % w = x := by rw [mul_comm, Nat.mul_add_mod]; exact Nat.mod_eq_of_lt hx
    have h2 : (y * w + x) / w = y := by rw [mul_comm, Nat.mul_add_div (by omega)]; simp [Nat.div_eq_of_lt hx]
    rw [h1, h2] at hc; exact hc

theorem onFilm_of_cell (w h x y : ℕ) (rp : ℝ × ℝ) (hx : x < w) (hy : y < h) (hc : InCell rp w h x y) : OnFilm rp := by
  have hwr : (0 : ℝ) < w := by exact_mod_cast (by omega : 0 < w)
  have hhr : (0 : ℝ) < h := by exact_mod_cast (by omega : 0 < h)
  have h1 : ((x : ℝ) + 1) / w ≤ 1 := by rw [div_le_one hwr]; exact_mod_cast hx
  have h2 : ((y : ℝ) + 1) / h ≤ 1 := by rw [div_le_one hhr]; exact_mod_cast hy
  exact ⟨⟨le_trans (by positivity) hc.1.1, lt_of_lt_of_le hc.1.2 h1⟩, ⟨le_trans (by positivity) hc.2.1, lt_of_lt_of_le hc.2.2 h2⟩⟩

theorem inPixel_cell (w h x y p : ℕ) (l : Splats) (hx : x < w) (hy : y < h) (hp : p < w * h) (hl : ∀ s ∈ l, InCell s.1 w h (p % w) (p / w)) :
    inPixel w h x y l = if p = y * w + x then total l else 0 := by
  unfold inPixel total
  by_cases hc : p = y * w + x
  · rw [if_pos hc, List.filter_eq_self.mpr]
    intro s hs
    simp only [decide_eq_true_eq]
    exact (cell_iff w h x y p s.1 hx hy hp (hl s hs)).mpr hc
  · rw [if_neg hc, List.filter_eq_nil_iff.mpr]
    · rfl
    · intro s hs
      simp only [decide_eq_true_eq]
      exact fun h' => hc ((cell_iff w h x y p s.1 hx hy hp (hl s hs)).mp h')

theorem sum_one (q : ℕ) (v : V3 ℝ) : ∀ l : List ℕ, l.Nodup → (l.map (fun p => if p = q then v else 0)).sum = if q ∈ l then v else 0 := by
  intro l
  induction l with
  | nil => intro _; simp
  | cons a l ih =>
    intro hn
    rw [List.nodup_cons] at hn
    rw [List.map_cons, List.sum_cons, ih hn.2]
    by_cases ha : a = q
    · subst ha; simp [hn.1]
    · have : ¬ q = a := fun e => ha e.symm
      simp [ha, this]

theorem product_sum (n r q : ℕ) (hq : q < n) (g : ℕ → ℕ → V3 ℝ) :
    ((List.range n ×ˢ List.range r).map (fun c => if c.1 = q then g c.1 c.2 else 0)).sum = ((List.range r).map (fun s => g q s)).sum := by
  have e : ∀ l : List ℕ, ((l ×ˢ List.range r).map (fun c => if c.1 = q then g c.1 c.2 else 0)).sum = (l.map (fun p => if p = q then ((List.range r).map (fun s => g q s)).sum else 0)).sum := by
    intro l
    induction l with
    | nil => rfl
    | cons a l ih =>
      rw [List.product_cons, List.map_append, List.sum_append, ih, List.map_cons, List.sum_cons]
      congr 1
      rw [List.map_map]
      by_cases ha : a = q
      · subst ha; simp [Function.comp_def]
      · simp [Function.comp_def, ha]
  rw [e]
  rw [sum_one _ _ _ List.nodup_range, if_pos (List.mem_range.mpr hq)]

theorem range_const (r : ℕ) (C : V3 ℝ) : ((List.range r).map (fun _ => C)).sum = (r : ℝ) • C := by
  induction r with
  | zero => simp
  | succ r ih => rw [List.range_succ, List.map_append, List.sum_append, ih]; simp [add_smul]

/-- Pixel mode from the calls of the schedule. -/
theorem pixel_of_perm (b : Bitmap (V3 ℝ)) (run : ℕ × List (ℕ × ℕ)) (sample : ℕ → ℕ → Splats) (order : List ℕ) (hw0 : 0 < b.w) (hh0 : 0 < b.h) (hw : b.w < 2 ^ 31) (hh : b.h < 2 ^ 31)
    (ho : order.Perm (List.range (b.w * b.h))) (h0 : 0 < run.1) (hperm : run.2.Perm (List.range (b.w * b.h) ×ˢ List.range run.1))
    (hs : ∀ p s, p < b.w * b.h → s < run.1 → ∀ sp ∈ sample p s, InCell sp.1 b.w b.h (p % b.w) (p / b.w)) :
    ∃ f, renderFilm b true run sample order = some f ∧ f.w = b.w ∧ f.h = b.h ∧
      ∀ x y, x < b.w → y < b.h → pixel f x y = some ((1 / (run.1 : ℝ)) • ((List.range run.1).map (fun s => total (sample (y * b.w + x) s))).sum) := by
  have hmem : ∀ c ∈ run.2, c.1 < b.w * b.h ∧ c.2 < run.1 := by
    intro c hc
    have := hperm.mem_iff.mp hc
    obtain ⟨p, q⟩ := c
    rw [List.mem_product] at this
    exact ⟨List.mem_range.mp this.1, List.mem_range.mp this.2⟩
  have hcell : ∀ c ∈ run.2, ∀ sp ∈ sample c.1 c.2, InCell sp.1 b.w b.h (c.1 % b.w) (c.1 / b.w) := fun c hc => hs c.1 c.2 (hmem c hc).1 (hmem c hc).2
  have hon : ∀ c ∈ run.2, ∀ sp ∈ sample c.1 c.2, OnFilm sp.1 := by
    intro c hc sp hsp
    exact onFilm_of_cell b.w b.h _ _ _ (Nat.mod_lt _ hw0) (by rw [Nat.div_lt_iff_lt_mul hw0, mul_comm]; exact (hmem c hc).1) (hcell c hc sp hsp)
  obtain ⟨f, e, dw, dh, _, hp⟩ := render_spec b true run sample order hw0 hh0 hw hh hon ho (1 / (run.1 : ℝ)) (by simp [factor, Nat.pos_iff_ne_zero.mp h0])
  refine ⟨f, e, dw, dh, fun x y hx hy => ?_⟩
  rw [hp x y hx hy]
  congr 2
  have h1 : run.2.map (fun c => inPixel b.w b.h x y (sample c.1 c.2)) = run.2.map (fun c => if c.1 = y * b.w + x then total (sample c.1 c.2) else 0) :=
    List.map_congr_left fun c hc => inPixel_cell b.w b.h x y c.1 _ hx hy (hmem c hc).1 (hcell c hc)
  rw [h1, (hperm.map _).sum_eq, product_sum _ _ _ (by nlinarith) (fun p s => total (sample p s))]

/-! ### C69 -/

/-- The samples of a pixel's window: every random number pair of [0, 1)² is sent into the cell of the pixel. -/
theorem C69_window (w h index : ℕ) (hw : 0 < w) (hi : index < w * h) (u0 u1 : ℝ) (h0 : 0 ≤ u0 ∧ u0 < 1) (h1 : 0 ≤ u1 ∧ u1 < 1) :
    InCell (primaryU (window true w h index) u0 u1) w h (index % w) (index / w) := by
  have hh : 0 < h := Nat.pos_of_ne_zero (by rintro rfl; simp at hi)
  have hwr : (0 : ℝ) < w := by exact_mod_cast hw
  have hhr : (0 : ℝ) < h := by exact_mod_cast hh
  simp only [primaryU, window, if_true]
  have e : ∀ (n k : ℕ) (u : ℝ), 1 / (n : ℝ) * k + 1 / n * u = (k + u) / n := fun n k u => by ring
  rw [e, e]
  refine ⟨⟨?_, ?_⟩, ⟨?_, ?_⟩⟩
  · exact div_le_div_of_nonneg_right (by linarith [h0.1]) hwr.le
  · exact div_lt_div_of_pos_right (by linarith [h0.2]) hwr
  · exact div_le_div_of_nonneg_right (by linarith [h1.1]) hhr.le
  · exact div_lt_div_of_pos_right (by linarith [h1.2]) hhr

/-- Pixel mode, fixed number of samples: whatever the number of threads and their interleaving, every pixel is the mean of what its own spp samples contribute. -/
theorem C69_pixel_mean (b : Bitmap (V3 ℝ)) (env : Env) (count : ℕ → ℕ) (spp : ℕ) (sample : ℕ → ℕ → Splats) (order : List ℕ) (hw0 : 0 < b.w) (hh0 : 0 < b.h) (hw : b.w < 2 ^ 31) (hh : b.h < 2 ^ 31)
    (ho : order.Perm (List.range (b.w * b.h))) (h0 : 0 < spp) (hE : env.Complete (b.w * b.h * spp))
    (hs : ∀ p s, p < b.w * b.h → s < spp → ∀ sp ∈ sample p s, InCell sp.1 b.w b.h (p % b.w) (p / b.w)) :
    ∃ f, renderFilm b true (sppSample env count (b.w * b.h) spp) sample order = some f ∧ f.w = b.w ∧ f.h = b.h ∧
      ∀ x y, x < b.w → y < b.h → pixel f x y = some ((1 / (spp : ℝ)) • ((List.range spp).map (fun s => total (sample (y * b.w + x) s))).sum) :=
  pixel_of_perm b _ sample order hw0 hh0 hw hh ho h0 (C20_spp_sample env count _ spp hE).2 hs

/-- Pixel mode, time limit: the same with the number of rounds that were run. -/
theorem C69_pixel_mean_time (b : Bitmap (V3 ℝ)) (env : Env) (count : ℕ → ℕ) (limit : ℚ) (fuel r : ℕ) (calls : List (ℕ × ℕ)) (sample : ℕ → ℕ → Splats) (order : List ℕ) (hw0 : 0 < b.w) (hh0 : 0 < b.h) (hw : b.w < 2 ^ 31) (hh : b.h < 2 ^ 31)
    (ho : order.Perm (List.range (b.w * b.h))) (hE : env.Complete (b.w * b.h)) (hr : sppTime env limit (b.w * b.h) fuel 0 count 0 [] = some (r, calls))
    (hs : ∀ p s, p < b.w * b.h → s < r → ∀ sp ∈ sample p s, InCell sp.1 b.w b.h (p % b.w) (p / b.w)) :
    0 < r ∧ ∃ f, renderFilm b true (r, calls) sample order = some f ∧ f.w = b.w ∧ f.h = b.h ∧
      ∀ x y, x < b.w → y < b.h → pixel f x y = some ((1 / (r : ℝ)) • ((List.range r).map (fun s => total (sample (y * b.w + x) s))).sum) := by
  obtain ⟨parts, h1, h2, h3, h4, _⟩ := C21_spp_time env limit _ fuel count hE r calls hr
  subst h1; subst h2
  exact ⟨h3, pixel_of_perm b (parts.length, parts.flatten) sample order hw0 hh0 hw hh ho h3 (parts_perm _ parts h4) hs⟩

/-- A scene of constant radiance in pixel mode: if every sample of every pixel carries C, every pixel is C, for every number of samples. -/
theorem C69_pixel_constant (b : Bitmap (V3 ℝ)) (env : Env) (count : ℕ → ℕ) (spp : ℕ) (sample : ℕ → ℕ → Splats) (order : List ℕ) (C : V3 ℝ) (hw0 : 0 < b.w) (hh0 : 0 < b.h) (hw : b.w < 2 ^ 31) (hh : b.h < 2 ^ 31)
    (ho : order.Perm (List.range (b.w * b.h))) (h0 : 0 < spp) (hE : env.Complete (b.w * b.h * spp))
    (hs : ∀ p s, p < b.w * b.h → s < spp → ∀ sp ∈ sample p s, InCell sp.1 b.w b.h (p % b.w) (p / b.w))
    (hC : ∀ p s, p < b.w * b.h → s < spp → total (sample p s) = C) :
    ∃ f, renderFilm b true (sppSample env count (b.w * b.h) spp) sample order = some f ∧ ∀ x y, x < b.w → y < b.h → pixel f x y = some C := by
  obtain ⟨f, e, _, _, hp⟩ := C69_pixel_mean b env count spp sample order hw0 hh0 hw hh ho h0 hE hs
  refine ⟨f, e, fun x y hx hy => ?_⟩
  rw [hp x y hx hy]
  have : (List.range spp).map (fun s => total (sample (y * b.w + x) s)) = (List.range spp).map (fun _ => C) :=
    List.map_congr_left fun s hs' => hC _ s (by nlinarith) (List.mem_range.mp hs')
  have hr : (spp : ℝ) ≠ 0 := by exact_mod_cast h0.ne'
  rw [this, range_const, smul_smul, one_div_mul_cancel hr, one_smul]

/-- Image mode, fixed number of samples: every pixel is the number of pixels times the mean over all samples of what they contribute to it. -/
theorem C69_image_mean (b : Bitmap (V3 ℝ)) (env : Env) (count : ℕ → ℕ) (n : ℕ) (sample : ℕ → ℕ → Splats) (order : List ℕ) (hw0 : 0 < b.w) (hh0 : 0 < b.h) (hw : b.w < 2 ^ 31) (hh : b.h < 2 ^ 31)
    (ho : order.Perm (List.range (b.w * b.h))) (h0 : 0 < n) (hE : env.Complete n) (hs : ∀ s < n, ∀ sp ∈ sample 0 s, OnFilm sp.1) :
    ∃ f, renderFilm b false (spiSample env count n) sample order = some f ∧ f.w = b.w ∧ f.h = b.h ∧
      ∀ x y, x < b.w → y < b.h → pixel f x y = some (((b.w * b.h : ℕ) / n : ℝ) • ((List.range n).map (fun s => inPixel b.w b.h x y (sample 0 s))).sum) := by
  have hperm := (C20_spi_sample env count n hE).2
  have hon : ∀ c ∈ (spiSample env count n).2, ∀ sp ∈ sample c.1 c.2, OnFilm sp.1 := by
    intro c hc
    obtain ⟨i, hi, rfl⟩ := List.mem_map.mp (hperm.mem_iff.mp hc)
    exact hs i (List.mem_range.mp hi)
  obtain ⟨f, e, dw, dh, _, hp⟩ := render_spec b false (spiSample env count n) sample order hw0 hh0 hw hh hon ho (((b.w * b.h : ℕ) / n : ℝ))
    (by simp [factor, spiSample, Nat.pos_iff_ne_zero.mp h0])
  refine ⟨f, e, dw, dh, fun x y hx hy => ?_⟩
  rw [hp x y hx hy, (hperm.map _).sum_eq, List.map_map]
  rfl

/-- Image mode, time limit. -/
theorem C69_image_mean_time (b : Bitmap (V3 ℝ)) (env : Env) (count : ℕ → ℕ) (limit : ℚ) (fuel n r : ℕ) (calls : List (ℕ × ℕ)) (sample : ℕ → ℕ → Splats) (order : List ℕ) (hw0 : 0 < b.w) (hh0 : 0 < b.h) (hw : b.w < 2 ^ 31) (hh : b.h < 2 ^ 31)
    (ho : order.Perm (List.range (b.w * b.h))) (h0 : 0 < n) (hE : env.Complete n) (hr : spiTime env limit n fuel 0 count 0 [] = some (r, calls)) (hs : ∀ c ∈ calls, ∀ sp ∈ sample c.1 c.2, OnFilm sp.1) :
    calls.length = r ∧ 0 < r ∧ ∃ f, renderFilm b false (r, calls) sample order = some f ∧ f.w = b.w ∧ f.h = b.h ∧
      ∀ x y, x < b.w → y < b.h → pixel f x y = some (((b.w * b.h : ℕ) / r : ℝ) • (calls.map (fun c => inPixel b.w b.h x y (sample c.1 c.2))).sum) := by
  obtain ⟨parts, _, h2, h3, h4, _⟩ := C21_spi_time env limit n fuel count hE r calls hr
  have hr0 : 0 < r := by rw [h2]; positivity
  obtain ⟨f, e, dw, dh, _, hp⟩ := render_spec b false (r, calls) sample order hw0 hh0 hw hh hs ho (((b.w * b.h : ℕ) / r : ℝ)) (by simp [factor, Nat.pos_iff_ne_zero.mp hr0])
  exact ⟨h3, hr0, f, e, dw, dh, hp⟩

/-- No contribution is lost or counted twice: the sum over the pixels of what a list of splats adds is everything the splats carry. -/
theorem C69_no_loss (w h : ℕ) (hw : 0 < w) (hh : 0 < h) (l : Splats) (hl : ∀ s ∈ l, OnFilm s.1) :
    ∑ x ∈ Finset.range w, ∑ y ∈ Finset.range h, inPixel w h x y l = total l := by
  have hwr : (0 : ℝ) < w := by exact_mod_cast hw
  have hhr : (0 : ℝ) < h := by exact_mod_cast hh
  induction l with
  | nil => simp [inPixel, total]
  | cons s l ih =>
    have e : ∀ x y, inPixel w h x y (s :: l) = inPixel w h x y [s] + inPixel w h x y l := fun x y => inPixel_append w h x y [s] l
    simp only [e, Finset.sum_add_distrib]
    rw [ih fun t ht => hl t (List.mem_cons_of_mem _ ht)]
    have hs := hl s (by simp)
    have hx0 : 0 ≤ s.1.1 * w := mul_nonneg hs.1.1 hwr.le
    have hy0 : 0 ≤ s.1.2 * h := mul_nonneg hs.2.1 hhr.le
    have cell : ∀ x y, InCell s.1 w h x y ↔ ⌊s.1.1 * w⌋₊ = x ∧ ⌊s.1.2 * h⌋₊ = y := by
      intro x y
      rw [Nat.floor_eq_iff hx0, Nat.floor_eq_iff hy0]
      simp only [InCell, div_le_iff₀ hwr, lt_div_iff₀ hwr, div_le_iff₀ hhr, lt_div_iff₀ hhr]
    have one : ∀ x y, inPixel w h x y [s] = if ⌊s.1.1 * w⌋₊ = x then (if ⌊s.1.2 * h⌋₊ = y then s.2 else 0) else 0 := by
      intro x y
      by_cases h1 : ⌊s.1.1 * w⌋₊ = x <;> by_cases h2 : ⌊s.1.2 * h⌋₊ = y <;> simp [inPixel, cell, h1, h2]
    have hxl : ⌊s.1.1 * w⌋₊ < w := by rw [Nat.floor_lt hx0]; nlinarith [hs.1.2]
    have hyl : ⌊s.1.2 * h⌋₊ < h := by rw [Nat.floor_lt hy0]; nlinarith [hs.2.2]
    simp only [one]
    rw [Finset.sum_eq_single ⌊s.1.1 * w⌋₊, Finset.sum_eq_single ⌊s.1.2 * h⌋₊]
    · simp [total]
    · intro y _ hy; simp [Ne.symm hy]
    · intro hn; exact absurd (Finset.mem_range.mpr hyl) hn
    · intro x _ hx; simp [Ne.symm hx]
    · intro hn; exact absurd (Finset.mem_range.mpr hxl) hn

/-- A scene of constant radiance in image mode: if every sample carries C, the mean over the pixels of the rendered image is exactly C, for every number of samples and every placement of the samples. -/
theorem C69_image_constant (b : Bitmap (V3 ℝ)) (env : Env) (count : ℕ → ℕ) (n : ℕ) (sample : ℕ → ℕ → Splats) (order : List ℕ) (C : V3 ℝ) (hw0 : 0 < b.w) (hh0 : 0 < b.h) (hw : b.w < 2 ^ 31) (hh : b.h < 2 ^ 31)
    (ho : order.Perm (List.range (b.w * b.h))) (h0 : 0 < n) (hE : env.Complete n) (hs : ∀ s < n, ∀ sp ∈ sample 0 s, OnFilm sp.1) (hC : ∀ s < n, total (sample 0 s) = C) :
    ∃ f, renderFilm b false (spiSample env count n) sample order = some f ∧ ∃ v : ℕ → ℕ → V3 ℝ, (∀ x y, x < b.w → y < b.h → pixel f x y = some (v x y)) ∧
      (1 / ((b.w * b.h : ℕ) : ℝ)) • ∑ x ∈ Finset.range b.w, ∑ y ∈ Finset.range b.h, v x y = C := by
  obtain ⟨f, e, _, _, hp⟩ := C69_image_mean b env count n sample order hw0 hh0 hw hh ho h0 hE hs
  refine ⟨f, e, _, hp, ?_⟩
  have hn : (n : ℝ) ≠ 0 := by exact_mod_cast h0.ne'
  have hwh : ((b.w * b.h : ℕ) : ℝ) ≠ 0 := by exact_mod_cast (Nat.mul_pos hw0 hh0).ne'
  simp only [← Finset.smul_sum]
  have key : ∀ m, m ≤ n → ∑ x ∈ Finset.range b.w, ∑ y ∈ Finset.range b.h, ((List.range m).map (fun s => inPixel b.w b.h x y (sample 0 s))).sum = (m : ℝ) • C := by
    intro m
    induction m with
    | zero => intro _; simp
    | succ m ih =>
      intro hm
      simp only [List.range_succ, List.map_append, List.sum_append, Finset.sum_add_distrib, List.map_cons, List.map_nil, List.sum_cons, List.sum_nil, add_zero]
      rw [ih (by omega), C69_no_loss b.w b.h hw0 hh0 _ (hs m (by omega)), hC m (by omega)]
      push_cast
      rw [add_smul, one_smul]
  rw [key n le_rfl, smul_smul, smul_smul]
  rw [show 1 / ((b.w * b.h : ℕ) : ℝ) * (((b.w * b.h : ℕ) : ℝ) / n) * n = 1 by field_simp, one_smul]

open MeasureTheory in
/-- Image mode draws the raster position uniformly: a pixel's cell has measure 1 / (w h), so that the factor w h makes the expectation of a pixel the mean radiance over its cell. -/
theorem C69_cell_measure (w h x y : ℕ) (hw : 0 < w) (hh : 0 < h) (hx : x < w) (hy : y < h) :
    volume {u : ℝ × ℝ | OnFilm u ∧ InCell (primaryU (window false w h 0) u.1 u.2) w h x y} = ENNReal.ofReal (1 / ((w : ℝ) * h)) := by
  have hwr : (0 : ℝ) < w := by exact_mod_cast hw
  have hhr : (0 : ℝ) < h := by exact_mod_cast hh
  have e : {u : ℝ × ℝ | OnFilm u ∧ InCell (primaryU (window false w h 0) u.1 u.2) w h x y} = Set.Ico ((x : ℝ) / w) (((x : ℝ) + 1) / w) ×ˢ Set.Ico ((y : ℝ) / h) (((y : ℝ) + 1) / h) := by
    ext ⟨a, c⟩
    have hp : primaryU (window false w h 0) a c = (a, c) := by simp [primaryU, window]
    constructor
    · rintro ⟨_, h2⟩
      simp only [hp] at h2
      exact ⟨h2.1, h2.2⟩
    · intro h2
      have hc : InCell (a, c) w h x y := ⟨h2.1, h2.2⟩
      refine ⟨onFilm_of_cell w h x y _ hx hy hc, ?_⟩
      simpa only [hp] using hc
  rw [e, Measure.volume_eq_prod, Measure.prod_prod, Real.volume_Ico, Real.volume_Ico, ← ENNReal.ofReal_mul (by rw [← sub_div, add_sub_cancel_left]; positivity)]
  congr 1
  field_simp
  ring

/-- Concrete case: a 3 by 2 film, four samples per pixel taken at the centre of each pixel's window, radiance (1, 2, 3). -/
noncomputable def exSample (p _s : ℕ) : Splats := [(primaryU (window true 3 2 p) (1 / 2) (1 / 2), ⟨1, 2, 3⟩)]
example : ∀ p s, p < 3 * 2 → s < 4 → ∀ sp ∈ exSample p s, InCell sp.1 3 2 (p % 3) (p / 3) := by
  intro p s hp _ sp hsp
  simp only [exSample, List.mem_singleton] at hsp
  subst hsp
  exact C69_window 3 2 p (by norm_num) hp _ _ (by norm_num) (by norm_num)
example : ∀ p s, p < 3 * 2 → s < 4 → total (exSample p s) = ⟨1, 2, 3⟩ := by
  intro p s _ _
  simp [exSample, total]

end LM.RenderFilm
