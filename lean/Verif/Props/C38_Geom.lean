import Verif.Props.C83_Sah
import Verif.Props.C37_Any
namespace LM.Bvh
open LM LM.Bound

/-! ### C38: a scene of 100 ordinary triangles whose tree is too deep. Geometry: triangle k fills the box [-10^-k, -10^-k/2]³, so the triangles crowd towards the origin. -/

/-- Size of triangle k. -/
def dsz (k : ℕ) : ℚ := (1 / 10) ^ k

/-- Triangle k. -/
def deepTri (k : ℕ) : Tri := Tri.mk' ⟨-dsz k, -dsz k, -dsz k⟩ ⟨-dsz k / 2, -dsz k, -dsz k⟩ ⟨-dsz k, -dsz k / 2, -dsz k / 2⟩

theorem dsz_pos (k : ℕ) : 0 < dsz k := by unfold dsz; positivity
theorem dsz_le (k : ℕ) : dsz k ≤ 1 := by unfold dsz; exact pow_le_one₀ (by norm_num) (by norm_num)
theorem dsz_add (j k : ℕ) : dsz (j + k) = dsz j * dsz k := by unfold dsz; rw [pow_add]
theorem dsz_one : dsz 1 = 1 / 10 := by simp [dsz]
theorem dsz_anti {j k : ℕ} (h : j ≤ k) : dsz k ≤ dsz j := by
  unfold dsz; exact pow_le_pow_of_le_one (by norm_num) (by norm_num) h
theorem dsz_strict {j k : ℕ} (h : j < k) : dsz k < dsz j := by
  unfold dsz; exact pow_lt_pow_right_of_lt_one₀ (by norm_num) (by norm_num) h

theorem gmin_r {x y : ℚ} (h : y < x) : gmin x y = y := if_pos h
theorem gmin_l {x y : ℚ} (h : x ≤ y) : gmin x y = x := if_neg (not_lt.mpr h)
theorem gmax_r {x y : ℚ} (h : x < y) : gmax x y = y := if_pos h
theorem gmax_l {x y : ℚ} (h : y ≤ x) : gmax x y = x := if_neg (not_lt.mpr h)

theorem deepTri_b (k : ℕ) : (deepTri k).b = ⟨V3.all (-dsz k), V3.all (-dsz k / 2)⟩ := by
  have h0 := dsz_pos k
  have h1 := dsz_le k
  have big : -dsz k < 10 ^ 10 := by norm_num; linarith
  have big' : -10 ^ 10 < -dsz k := by norm_num; linarith
  have e1 : gmin (gmin (gmin (10 ^ 10) (-dsz k)) (-dsz k / 2)) (-dsz k) = -dsz k := by
    rw [gmin_r big, gmin_l (show -dsz k ≤ -dsz k / 2 by linarith), gmin_l le_rfl]
  have e2 : gmin (gmin (gmin (10 ^ 10) (-dsz k)) (-dsz k)) (-dsz k / 2) = -dsz k := by
    rw [gmin_r big, gmin_l le_rfl, gmin_l (by linarith)]
  have e3 : gmax (gmax (gmax (-10 ^ 10) (-dsz k)) (-dsz k / 2)) (-dsz k) = -dsz k / 2 := by
    rw [gmax_r big', gmax_r (show -dsz k < -dsz k / 2 by linarith), gmax_l (by linarith)]
  have e4 : gmax (gmax (gmax (-10 ^ 10) (-dsz k)) (-dsz k)) (-dsz k / 2) = -dsz k / 2 := by
    rw [gmax_r big', gmax_l le_rfl, gmax_r (by linarith)]
  simp only [deepTri, Tri.mk', mergeP, dflt, vmin, vmax, V3.all, Inf, e1, e2, e3, e4]

theorem deepTri_c (k : ℕ) (ax : ℕ) : coord (deepTri k).c ax = -(3 / 4) * dsz k := by
  have : (deepTri k).c = center (deepTri k).b := rfl
  rw [this, deepTri_b]
  unfold coord
  split <;> simp [center, V3.all] <;> ring

theorem deep_inRange (k : ℕ) : InRange (deepTri k).b := by
  have h0 := dsz_pos k
  have h1 := dsz_le k
  rw [deepTri_b]
  simp only [InRange, V3.all]
  refine ⟨?_, ?_, ?_, ?_, ?_, ?_⟩ <;> norm_num <;> linarith

/-- The hull of the triangles s, ..., s + m is the box [-dsz s, -dsz (s + m) / 2]³. -/
theorem deep_area (s m : ℕ) : HullArea ((List.range' s (m + 1)).map fun k => (deepTri k).b) (6 * (dsz s - dsz (s + m) / 2) ^ 2) := by
  refine ⟨V3.all (-dsz s), V3.all (-dsz (s + m) / 2), ?_, by simp only [V3.all]; ring⟩
  have hmin : ∀ f : Box ℚ → ℚ, (∀ k, f (deepTri k).b = -dsz k) → IsLeast {x | ∃ b ∈ (List.range' s (m + 1)).map fun k => (deepTri k).b, x = f b} (-dsz s) := by
    intro f hf
    constructor
    · exact ⟨_, List.mem_map.mpr ⟨s, by simp, rfl⟩, (hf s).symm⟩
    · rintro x ⟨b, hb, rfl⟩
      obtain ⟨k, hk, rfl⟩ := List.mem_map.mp hb
      rw [hf]
      have := dsz_anti (List.mem_range'_1.mp hk).1
      linarith
  have hmax : ∀ f : Box ℚ → ℚ, (∀ k, f (deepTri k).b = -dsz k / 2) → IsGreatest {x | ∃ b ∈ (List.range' s (m + 1)).map fun k => (deepTri k).b, x = f b} (-dsz (s + m) / 2) := by
    intro f hf
    constructor
    · exact ⟨_, List.mem_map.mpr ⟨s + m, by rw [List.mem_range'_1]; omega, rfl⟩, (hf _).symm⟩
    · rintro x ⟨b, hb, rfl⟩
      obtain ⟨k, hk, rfl⟩ := List.mem_map.mp hb
      rw [hf]
      have := dsz_anti (show k ≤ s + m by have := (List.mem_range'_1.mp hk).2; omega)
      linarith
  refine ⟨hmin _ ?_, hmin _ ?_, hmin _ ?_, hmax _ ?_, hmax _ ?_, hmax _ ?_⟩ <;> intro k <;> rw [deepTri_b] <;> rfl

theorem seg_id (s e : ℕ) : seg (fun i => i) s e = List.range' s (e - s) := by simp [seg]

/-- Sorting changes nothing: the triangles are already in order along every axis. -/
theorem deep_sorts {s e ax : ℕ} {idx' : ℕ → ℕ} (h : Sorts deepTri s e ax (fun i => i) idx') : idx' = fun i => i := by
  obtain ⟨h1, h2, h3⟩ := h
  have heq : seg idx' s e = seg (fun i => i) s e := by
    refine sorted_unique (trs := deepTri) (ax := ax) ?_ ?_ ?_ h2
    · intro a _ b _ hab
      rw [deepTri_c, deepTri_c] at hab
      rcases lt_trichotomy a b with h | h | h
      · have := dsz_strict h; linarith
      · exact h
      · have := dsz_strict h; linarith
    · exact h3.imp (fun h => not_lt.mp h)
    · rw [seg_id]
      unfold SortedBy
      refine (List.pairwise_lt_range' (s := s) (n := e - s)).imp ?_
      intro a b hab
      rw [deepTri_c, deepTri_c]
      have := dsz_strict hab
      linarith
  funext j
  by_cases hj : s ≤ j ∧ j < e
  · rw [seg_id] at heq
    have := congrArg (fun l => l[j - s]?) heq
    simp only [seg, List.getElem?_map] at this
    rw [List.getElem?_range' (by omega)] at this
    simp at this
    rw [show s + (j - s) = j by omega] at this
    exact this
  · exact h1 j hj

theorem deep_nodeArea (s e : ℕ) (h : s < e) : surfaceArea (rangeBound deepTri (fun i => i) s e dflt) = 6 * (dsz s - dsz (e - 1) / 2) ^ 2 := by
  have h1 := area_hull deepTri (List.range' s (e - s)) (by simp; omega) (fun k _ => deep_inRange k)
  have h2 := deep_area s (e - 1 - s)
  rw [show e - 1 - s + 1 = e - s by omega, show s + (e - 1 - s) = e - 1 by omega] at h2
  rw [rangeBound, seg_id]
  exact hullArea_unique (fun _ => Iff.rfl) h1 h2

/-- The cost of splitting the triangles s, ..., e - 1 after the first i. -/
theorem deep_cost (s e i : ℕ) (h1 : 1 ≤ i) (h2 : i < e - s) :
    sahCost deepTri (List.range' s (e - s)) (6 * (dsz s - dsz (e - 1) / 2) ^ 2) i =
      some (1 + ((1 - dsz (i - 1) / 2) ^ 2 * i + (dsz i - dsz (e - 1 - s) / 2) ^ 2 * ((e - s - i : ℕ) : ℚ)) / (1 - dsz (e - 1 - s) / 2) ^ 2) := by
  have hp := dsz_pos s
  have hN : (1 - dsz (e - 1 - s) / 2) ^ 2 ≠ 0 := by
    have := dsz_le (e - 1 - s)
    have : 0 < 1 - dsz (e - 1 - s) / 2 := by linarith
    positivity
  have hNe : 6 * (dsz s - dsz (e - 1) / 2) ^ 2 = (6 * dsz s ^ 2) * (1 - dsz (e - 1 - s) / 2) ^ 2 := by
    rw [show e - 1 = s + (e - 1 - s) by omega, dsz_add, show s + (e - 1 - s) - s = e - 1 - s by omega]
    ring
  have hN0 : 6 * (dsz s - dsz (e - 1) / 2) ^ 2 ≠ 0 := by
    rw [hNe]
    have : 6 * dsz s ^ 2 ≠ 0 := by positivity
    exact mul_ne_zero this hN
  obtain ⟨c, hc, aL, aR, hL, hR, rfl⟩ := sahCost_split deepTri (List.range' s (e - s)) _ hN0 i h1 (by simpa using h2) (fun k _ => deep_inRange k)
  rw [hc]
  congr 1
  have tl : (List.range' s (e - s)).take i = List.range' s (i - 1 + 1) := by
    rw [List.take_range'_of_length_ge (by omega)]
    congr 1
    omega
  have dl : (List.range' s (e - s)).drop i = List.range' (s + i) (e - 1 - (s + i) + 1) := by
    rw [List.drop_range']
    congr 1 <;> omega
  rw [tl] at hL
  rw [dl] at hR
  have eL := hullArea_unique (fun _ => Iff.rfl) hL (deep_area s (i - 1))
  have eR := hullArea_unique (fun _ => Iff.rfl) hR (deep_area (s + i) (e - 1 - (s + i)))
  have l1 : ((List.range' s (e - s)).take i).length = i := by simp; omega
  have l2 : ((List.range' s (e - s)).drop i).length = e - s - i := by simp
  rw [l1, l2, eL, eR, hNe, show s + i + (e - 1 - (s + i)) = s + (e - 1 - s) by omega, dsz_add s (i - 1), dsz_add s i, dsz_add s (e - 1 - s)]
  have : 6 * dsz s ^ 2 ≠ 0 := by positivity
  field_simp

/-- Splitting off the first triangle is strictly best, and better than a leaf, for at most 100 triangles. -/
theorem deep_first_best (s e : ℕ) (h2 : 2 ≤ e - s) (h100 : e - s ≤ 100) :
    ∃ c, sahCost deepTri (List.range' s (e - s)) (6 * (dsz s - dsz (e - 1) / 2) ^ 2) 1 = some c ∧ c ≤ ((e - s : ℕ) : ℚ) ∧
      ∀ i, 2 ≤ i → i < e - s → ∃ c', sahCost deepTri (List.range' s (e - s)) (6 * (dsz s - dsz (e - 1) / 2) ^ 2) i = some c' ∧ c < c' := by
  refine ⟨_, deep_cost s e 1 le_rfl (by omega), ?_, ?_⟩
  all_goals
    have hz : dsz (1 - 1) = 1 := by simp [dsz]
    have hx0 := dsz_pos (e - 1 - s)
    have hx1 : dsz (e - 1 - s) ≤ 1 / 10 := by rw [← dsz_one]; exact dsz_anti (by omega)
    rw [hz, dsz_one]
    generalize hxe : dsz (e - 1 - s) = x at hx0 hx1
    have hm : ((e - s - 1 : ℕ) : ℚ) = ((e - s : ℕ) : ℚ) - 1 := by rw [Nat.cast_sub (by omega)]; simp
    have hm2 : (2 : ℚ) ≤ ((e - s : ℕ) : ℚ) := by exact_mod_cast h2
    have hm100 : ((e - s : ℕ) : ℚ) ≤ 100 := by exact_mod_cast h100
    have hN : 0 < (1 - x / 2) ^ 2 := by have : 0 < 1 - x / 2 := by linarith
                                        positivity
    have hq : (1 / 10 - x / 2) ^ 2 ≤ 1 / 100 := by nlinarith
    have hf : (1 - (1 : ℚ) / 2) ^ 2 * ((1 : ℕ) : ℚ) + (1 / 10 - x / 2) ^ 2 * ((e - s - 1 : ℕ) : ℚ) ≤ 1 / 4 + 1 / 100 * (((e - s : ℕ) : ℚ) - 1) := by
      rw [hm]
      have := mul_le_mul_of_nonneg_right hq (show 0 ≤ ((e - s : ℕ) : ℚ) - 1 by linarith)
      push_cast
      linarith
  · have hN2 : (9025 : ℚ) / 10000 ≤ (1 - x / 2) ^ 2 := by nlinarith
    rw [← le_sub_iff_add_le', div_le_iff₀ hN]
    refine hf.trans ?_
    have := mul_le_mul_of_nonneg_left hN2 (show 0 ≤ ((e - s : ℕ) : ℚ) - 1 by linarith)
    linarith
  · intro i hi hlt
    refine ⟨_, deep_cost s e i (by omega) hlt, ?_⟩
    rw [hxe]
    have hy0 := dsz_pos (i - 1)
    have hy1 : dsz (i - 1) ≤ 1 / 10 := by rw [← dsz_one]; exact dsz_anti (by omega)
    generalize dsz (i - 1) = y at hy0 hy1
    generalize dsz i = z
    refine add_lt_add_right (div_lt_div_of_pos_right ?_ hN) 1
    refine hf.trans_lt ?_
    have hy2 : (9025 : ℚ) / 10000 ≤ (1 - y / 2) ^ 2 := by nlinarith
    have hi2 : (2 : ℚ) ≤ i := by exact_mod_cast hi
    have h1 : (9025 : ℚ) / 10000 * 2 ≤ (1 - y / 2) ^ 2 * i := mul_le_mul hy2 hi2 (by norm_num) (by positivity)
    have h3 : 0 ≤ (z - x / 2) ^ 2 * ((e - s - i : ℕ) : ℚ) := by positivity
    linarith

end LM.Bvh
