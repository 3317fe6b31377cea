import Verif.Props.C51_Walk
import Verif.Props.C50_Mis
/-
  C51: the weights of the optimized bidirectional path tracer are the balance heuristic of the path densities.
-/
namespace LM.Path
open LM LM.Surface LM.Material LM.Light LM.Volume Finset

/-! ### Specification -/

/-- The density with which the first k vertices of the path are generated from its first vertex. -/
noncomputable def prodDens (W : World) (vs : List Vert) : ℕ → Option ℝ
  | 0 => some 1
  | k + 1 => do
    let p ← prodDens W vs k
    let d ← dens W vs k
    return p * d

/-- The density of strategy k: the first k vertices from the light, the others from the eye. -/
noncomputable def stratDens (W : World) (vs : List Vert) (k : ℕ) : Option ℝ := do
  let a ← prodDens W vs k
  let b ← prodDens W vs.reverse (vs.length - k)
  return a * b

/-! ### The loops -/

theorem sumUp_eq {W : World} {path : List CV} {f g : ℕ → ℝ} {σ : ℕ → Bool}
    (hv : ∀ i v, path[i]? = some v → v.pdfFwd = f i ∧ v.pdfRev = g i) (hσ : ∀ k ≤ path.length, isSamplable W (path.map CV.vert) k = some (σ k)) :
    ∀ (k i : ℕ) (r sum : ℝ), i + k ≤ path.length → (∀ j, i ≤ j → j < i + k → g j ≠ 0) →
      sumUp W path k i r sum = some (sum + ∑ m ∈ range k, if σ (i + m + 1) then r * ∏ j ∈ range (m + 1), f (i + j) / g (i + j) else 0) := by
  intro k
  induction k with
  | zero => intro i r sum _ _; simp [sumUp]
  | succ k ih =>
    intro i r sum hik hg
    have hp : path[i]? = some path[i] := List.getElem?_eq_getElem (by omega)
    obtain ⟨h1, h2⟩ := hv i _ hp
    have hgi := hg i (le_refl _) (by omega)
    simp only [sumUp, hp, Option.bind_eq_bind, Option.bind_some, h1, h2]
    rw [show divF (f i) (g i) = some (f i / g i) by unfold divF; rw [if_neg hgi]]
    simp only [Option.bind_some, hσ (i + 1) (by omega)]
    rw [ih (i + 1) _ _ (by omega) (fun j hj hj' => hg j (by omega) (by omega)), Finset.sum_range_succ']
    congr 1
    have e1 : ∀ m, (if σ (i + 1 + m + 1) then r * (f i / g i) * ∏ j ∈ range (m + 1), f (i + 1 + j) / g (i + 1 + j) else 0) =
        if σ (i + (m + 1) + 1) then r * ∏ j ∈ range (m + 1 + 1), f (i + j) / g (i + j) else 0 := by
      intro m
      rw [show i + 1 + m + 1 = i + (m + 1) + 1 by omega, Finset.prod_range_succ' _ (m + 1)]
      have : ∀ j, f (i + 1 + j) / g (i + 1 + j) = f (i + (j + 1)) / g (i + (j + 1)) := fun j => by rw [show i + 1 + j = i + (j + 1) by omega]
      simp only [this, Nat.add_zero]
      split_ifs
      · ring
      · rfl
    rw [Finset.sum_congr rfl (fun m _ => e1 m)]
    have e2 : (if σ (i + 1) = true then sum + r * (f i / g i) else sum) = sum + (if σ (i + 0 + 1) then r * ∏ j ∈ range (0 + 1), f (i + j) / g (i + j) else 0) := by
      simp only [Nat.add_zero, zero_add, Finset.prod_range_one]
      split_ifs <;> ring
    rw [e2]
    ring

theorem sumDown_eq {W : World} {path : List CV} {f g : ℕ → ℝ} {σ : ℕ → Bool}
    (hv : ∀ i v, path[i]? = some v → v.pdfFwd = f i ∧ v.pdfRev = g i) (hσ : ∀ k ≤ path.length, isSamplable W (path.map CV.vert) k = some (σ k)) :
    ∀ (i : ℕ) (r sum : ℝ), i ≤ path.length → (∀ j, j < i → f j ≠ 0) →
      sumDown W path i r sum = some (sum + ∑ m ∈ range i, if σ m then r * ∏ j ∈ Ico m i, g j / f j else 0) := by
  intro i
  induction i with
  | zero => intro r sum _ _; simp [sumDown]
  | succ i ih =>
    intro r sum hik hf
    have hp : path[i]? = some path[i] := List.getElem?_eq_getElem (by omega)
    obtain ⟨h1, h2⟩ := hv i _ hp
    have hfi := hf i (by omega)
    simp only [sumDown, hp, Option.bind_eq_bind, Option.bind_some, h1, h2]
    rw [show divF (g i) (f i) = some (g i / f i) by unfold divF; rw [if_neg hfi]]
    simp only [Option.bind_some, hσ i (by omega)]
    rw [ih _ _ (by omega) (fun j hj => hf j (by omega)), Finset.sum_range_succ]
    congr 1
    have e1 : ∀ m ∈ range i, (if σ m then r * (g i / f i) * ∏ j ∈ Ico m i, g j / f j else 0) = if σ m then r * ∏ j ∈ Ico m (i + 1), g j / f j else 0 := by
      intro m hm
      rw [Finset.prod_Ico_succ_top (by have := Finset.mem_range.mp hm; omega)]
      split_ifs
      · ring
      · rfl
    rw [Finset.sum_congr rfl e1]
    have e2 : (if σ i = true then sum + r * (g i / f i) else sum) = sum + (if σ i then r * ∏ j ∈ Ico i (i + 1), g j / f j else 0) := by
      rw [Finset.prod_Ico_succ_top (le_refl _)]
      split_ifs <;> simp
    rw [e2]
    ring

/-! ### Products -/

theorem prodDens_eq {W : World} {vs : List Vert} {f : ℕ → ℝ} : ∀ k, (∀ j < k, dens W vs j = some (f j)) → prodDens W vs k = some (∏ j ∈ range k, f j)
  | 0, _ => by simp [prodDens]
  | k + 1, h => by
    rw [prodDens, prodDens_eq k (fun j hj => h j (by omega)), h k (by omega)]
    simp [Finset.prod_range_succ]

/-- Samplable strategies that end on a vertex hit by chance need a vertex that can be hit. -/
theorem samplable_zero {W : World} {vs : List Vert} {v : Vert} (hv : vs[0]? = some v) (h : isSamplable W vs 0 = some true) : v.sp.geom.degenerated = false := by
  unfold isSamplable at h
  rw [if_pos rfl] at h
  obtain ⟨u, hu, h⟩ := bind_some h
  have : u = v := by
    have hl := (List.getElem?_eq_some_iff.mp hv).1
    unfold vertexAt index at hu
    rw [if_pos (by omega), if_pos rfl] at hu
    simp only [Int.toNat_zero] at hu
    rw [hv] at hu; cases hu; rfl
  subst this
  cases hd : u.sp.geom.degenerated
  · rfl
  · rw [hd] at h; simp at h

theorem samplable_last {W : World} {vs : List Vert} {v : Vert} {n : ℕ} (hn : vs.length = n + 1) (hv : vs[n]? = some v) (h : isSamplable W vs (n + 1) = some true) : v.sp.geom.degenerated = false := by
  unfold isSamplable at h
  rw [if_neg (by omega), if_pos (by omega)] at h
  obtain ⟨u, hu, h⟩ := bind_some h
  have : u = v := by
    unfold vertexAt index at hu
    rw [if_pos (by omega), if_neg (show ¬ TransDir.EL = .LE by decide)] at hu
    rw [show ((vs.length : Int) - 1 - 0).toNat = n by omega, hv] at hu
    cases hu; rfl
  subst this
  cases hd : u.sp.geom.degenerated
  · rfl
  · rw [hd] at h; simp at h

/-! ### The theorem -/

/-- C51. Let the two subpaths be sampled with their caches filled, let the path made of their first s and t vertices be samplable by strategy s, with a positive density of that strategy. Then the weight the
    renderer computes by multiplying ratios along the path is the balance heuristic: the density of strategy s over the sum of the densities of all strategies that can sample the path. In particular no
    ratio on the way divides by zero. For subpaths and paths of any length. -/
theorem C51_balance {W : World} {L E : List CV} {s t : ℕ} (hs : s ≤ L.length) (ht : t ≤ E.length) (h2 : 2 ≤ s + t) (HL : Subpath W L .light) (HE : Subpath W E .camera)
    (P vs : List _) (hP : fixup W (fullPath L E s t) s t = some P) (hvs : vs = (fullPath L E s t).map CV.vert)
    (σ : ℕ → Bool) (hσ : ∀ k ≤ s + t, isSamplable W vs k = some (σ k)) (hσs : σ s = true)
    (p : ℕ → ℝ) (hp : ∀ k ≤ s + t, σ k = true → stratDens W vs k = some (p k) ∧ 0 ≤ p k) (hps : 0 < p s) :
    misWeightOpt W L E s t = some (p s / ∑ k ∈ (range (s + t + 1)).filter (fun k => σ k = true), p k) := by
  have hlen := fullPath_len L E s t hs ht
  obtain ⟨hv, -⟩ := fixup_ok W _ P s t hlen hP
  have hPlen : P.length = s + t := by
    have := congrArg List.length hv
    simpa [hlen] using this
  subst hvs
  rw [← hv] at hσ hp
  have hvlen : (P.map CV.vert).length = s + t := by rw [List.length_map, hPlen]
  have hc := cache_ok hs ht h2 HL HE P hP (by rw [hσ s (by omega), hσs])
  -- cached values as functions of the index
  let f : ℕ → ℝ := fun i => if h : i < P.length then P[i].pdfFwd else 0
  let g : ℕ → ℝ := fun i => if h : i < P.length then P[i].pdfRev else 0
  have hfg : ∀ i v, P[i]? = some v → v.pdfFwd = f i ∧ v.pdfRev = g i := by
    intro i v hi
    obtain ⟨h, rfl⟩ := List.getElem?_eq_some_iff.mp hi
    simp only [f, g, dif_pos h, and_self]
  have hdf : ∀ k ≤ s + t, σ k = true → ∀ j < k, dens W (P.map CV.vert) j = some (f j) := by
    intro k hk hσk j hj
    have hg : P[j]? = some P[j] := List.getElem?_eq_getElem (by omega)
    rw [(hc j _ hg).1 ?_, (hfg j _ hg).1]
    by_cases hjn : j + 1 < s + t
    · exact .inl hjn
    · right
      have hkn : k = j + 1 := by omega
      subst hkn
      exact samplable_last (n := j) (v := P[j].vert) (by rw [hvlen]; omega) (by rw [List.getElem?_map, hg]; rfl) (by rw [hσ _ hk, hσk])
  have hdg : ∀ k ≤ s + t, σ k = true → ∀ j < s + t - k, dens W (P.map CV.vert).reverse j = some (g (s + t - 1 - j)) := by
    intro k hk hσk j hj
    have hg : P[s + t - 1 - j]? = some P[s + t - 1 - j] := List.getElem?_eq_getElem (by omega)
    have := (hc _ _ hg).2 ?_
    · rw [(hfg _ _ hg).2] at this
      rw [← this]; congr 1; omega
    · by_cases hjn : 0 < s + t - 1 - j
      · exact .inl hjn
      · right
        have hk0 : k = 0 := by omega
        subst hk0
        refine samplable_zero (v := (P[s + t - 1 - j]).vert) (vs := P.map CV.vert) ?_ (by rw [hσ _ hk, hσk])
        have h0 : s + t - 1 - j = 0 := by omega
        rw [List.getElem?_map, ← h0, hg]; rfl
  have hpk : ∀ k ≤ s + t, σ k = true → p k = (∏ j ∈ range k, f j) * ∏ j ∈ Ico k (s + t), g j := by
    intro k hk hσk
    have h := (hp k hk hσk).1
    unfold stratDens at h
    rw [prodDens_eq k (hdf k hk hσk), hvlen, prodDens_eq (s + t - k) (hdg k hk hσk)] at h
    simp only [Option.bind_eq_bind, Option.bind_some, Option.pure_def, Option.some.injEq] at h
    rw [← h]
    congr 1
    rw [Finset.prod_Ico_eq_prod_range, ← Finset.prod_range_reflect]
    apply Finset.prod_congr rfl
    intro j hj
    have := Finset.mem_range.mp hj
    congr 1; omega
  have hS := hpk s (by omega) hσs
  have hfne : ∀ j, j < s → f j ≠ 0 := by
    intro j hj h0
    have : (∏ j ∈ range s, f j) = 0 := Finset.prod_eq_zero (Finset.mem_range.mpr hj) h0
    rw [this, zero_mul] at hS
    exact hps.ne' hS
  have hgne : ∀ j, s ≤ j → j < s + t → g j ≠ 0 := by
    intro j hj hj' h0
    have : (∏ j ∈ Ico s (s + t), g j) = 0 := Finset.prod_eq_zero (Finset.mem_Ico.mpr ⟨hj, hj'⟩) h0
    rw [this, mul_zero] at hS
    exact hps.ne' hS
  -- the ratios
  have up : ∀ m < t, σ (s + m + 1) = true → (1 : ℝ) * ∏ j ∈ range (m + 1), f (s + j) / g (s + j) = p (s + m + 1) / p s := by
    intro m hm hσm
    rw [hpk (s + m + 1) (by omega) hσm, hS, one_mul]
    have e1 : ∏ j ∈ range (s + m + 1), f j = (∏ j ∈ range s, f j) * ∏ j ∈ range (m + 1), f (s + j) := by
      rw [show s + m + 1 = s + (m + 1) by omega, Finset.prod_range_add]
    have e2 : ∏ j ∈ Ico s (s + t), g j = (∏ j ∈ range (m + 1), g (s + j)) * ∏ j ∈ Ico (s + m + 1) (s + t), g j := by
      rw [← Finset.prod_Ico_consecutive g (show s ≤ s + m + 1 by omega) (show s + m + 1 ≤ s + t by omega)]
      congr 1
      rw [Finset.prod_Ico_eq_prod_range]
      congr 2; omega
    rw [e1, e2, Finset.prod_div_distrib]
    have n1 : ∏ j ∈ range s, f j ≠ 0 := Finset.prod_ne_zero_iff.mpr (fun j hj => hfne j (Finset.mem_range.mp hj))
    have n2 : ∏ j ∈ range (m + 1), g (s + j) ≠ 0 := Finset.prod_ne_zero_iff.mpr (fun j hj => hgne _ (by omega) (by have := Finset.mem_range.mp hj; omega))
    have n3 : ∏ j ∈ Ico (s + m + 1) (s + t), g j ≠ 0 := Finset.prod_ne_zero_iff.mpr (fun j hj => hgne _ (by have := Finset.mem_Ico.mp hj; omega) (Finset.mem_Ico.mp hj).2)
    field_simp
  have down : ∀ m < s, σ m = true → (1 : ℝ) * ∏ j ∈ Ico m s, g j / f j = p m / p s := by
    intro m hm hσm
    rw [hpk m (by omega) hσm, hS, one_mul]
    have e1 : ∏ j ∈ range s, f j = (∏ j ∈ range m, f j) * ∏ j ∈ Ico m s, f j := (Finset.prod_range_mul_prod_Ico f (by omega)).symm
    have e2 : ∏ j ∈ Ico m (s + t), g j = (∏ j ∈ Ico m s, g j) * ∏ j ∈ Ico s (s + t), g j := (Finset.prod_Ico_consecutive g (by omega) (by omega)).symm
    rw [e1, e2, Finset.prod_div_distrib]
    have n1 : ∏ j ∈ range m, f j ≠ 0 := Finset.prod_ne_zero_iff.mpr (fun j hj => hfne j (by have := Finset.mem_range.mp hj; omega))
    have n2 : ∏ j ∈ Ico m s, f j ≠ 0 := Finset.prod_ne_zero_iff.mpr (fun j hj => hfne _ (Finset.mem_Ico.mp hj).2)
    have n3 : ∏ j ∈ Ico s (s + t), g j ≠ 0 := Finset.prod_ne_zero_iff.mpr (fun j hj => hgne _ (Finset.mem_Ico.mp hj).1 (Finset.mem_Ico.mp hj).2)
    field_simp
  unfold misWeightOpt
  rw [hP]
  simp only [Option.bind_eq_bind, Option.bind_some]
  rw [sumUp_eq hfg (σ := σ) (fun k hk => hσ k (by omega)) t s 1 0 (by omega) hgne]
  simp only [Option.bind_some]
  rw [sumDown_eq hfg (σ := σ) (fun k hk => hσ k (by omega)) s 1 _ (by omega) hfne]
  simp only [Option.bind_some]
  have hsum : (1 : ℝ) + (0 + (∑ m ∈ range t, if σ (s + m + 1) = true then 1 * ∏ j ∈ range (m + 1), f (s + j) / g (s + j) else 0) +
      ∑ m ∈ range s, if σ m = true then 1 * ∏ j ∈ Ico m s, g j / f j else 0) = (∑ k ∈ (range (s + t + 1)).filter (fun k => σ k = true), p k) / p s := by
    have e1 : (∑ m ∈ range t, if σ (s + m + 1) = true then 1 * ∏ j ∈ range (m + 1), f (s + j) / g (s + j) else 0) = ∑ m ∈ range t, if σ (s + 1 + m) = true then p (s + 1 + m) / p s else 0 := by
      apply Finset.sum_congr rfl
      intro m hm
      rw [show s + 1 + m = s + m + 1 by omega]
      split_ifs with h
      · exact up m (Finset.mem_range.mp hm) h
      · rfl
    have e2 : (∑ m ∈ range s, if σ m = true then 1 * ∏ j ∈ Ico m s, g j / f j else 0) = ∑ m ∈ range s, if σ m = true then p m / p s else 0 := by
      apply Finset.sum_congr rfl
      intro m hm
      split_ifs with h
      · exact down m (Finset.mem_range.mp hm) h
      · rfl
    rw [e1, e2, Finset.sum_div, Finset.sum_filter, show s + t + 1 = (s + 1) + t by omega, Finset.sum_range_add, Finset.sum_range_succ, if_pos hσs, div_self hps.ne']
    ring
  rw [hsum]
  have hpos : 0 < ∑ k ∈ (range (s + t + 1)).filter (fun k => σ k = true), p k := by
    refine Finset.sum_pos' ?_ ⟨s, by simp [hσs], hps⟩
    intro k hk
    have := Finset.mem_filter.mp hk
    exact (hp k (by have := Finset.mem_range.mp this.1; omega) this.2).2
  unfold divF
  rw [if_neg (div_pos hpos hps).ne']
  congr 1
  rw [one_div_div]

/-- C51. So the weights of the strategies that can generate a path sum to one: every strategy may start from other subpaths, as long as the path is the same. -/
theorem C51_partition {W : World} {n : ℕ} (h2 : 2 ≤ n) (vs : List Vert) (σ : ℕ → Bool) (hσ : ∀ k ≤ n, isSamplable W vs k = some (σ k)) (p : ℕ → ℝ)
    (hp : ∀ k ≤ n, σ k = true → stratDens W vs k = some (p k) ∧ 0 < p k) (hex : ∃ k ≤ n, σ k = true)
    (L E : ℕ → List CV) (hL : ∀ k ≤ n, σ k = true → Subpath W (L k) .light ∧ k ≤ (L k).length) (hE : ∀ k ≤ n, σ k = true → Subpath W (E k) .camera ∧ n - k ≤ (E k).length)
    (hvs : ∀ k ≤ n, σ k = true → (fullPath (L k) (E k) k (n - k)).map CV.vert = vs ∧ ∃ P, fixup W (fullPath (L k) (E k) k (n - k)) k (n - k) = some P) :
    ∃ w : ℕ → ℝ, (∀ k ≤ n, σ k = true → misWeightOpt W (L k) (E k) k (n - k) = some (w k)) ∧ ∑ k ∈ (range (n + 1)).filter (fun k => σ k = true), w k = 1 := by
  refine ⟨fun k => p k / ∑ k ∈ (range (n + 1)).filter (fun k => σ k = true), p k, ?_, ?_⟩
  · intro k hk hσk
    obtain ⟨e, P, hP⟩ := hvs k hk hσk
    have hn : k + (n - k) = n := by omega
    have := C51_balance (hL k hk hσk).2 (hE k hk hσk).2 (by omega) (hL k hk hσk).1 (hE k hk hσk).1 P vs hP e.symm σ (by rw [hn]; exact hσ) hσk p
      (by rw [hn]; exact fun j hj hσj => ⟨(hp j hj hσj).1, (hp j hj hσj).2.le⟩) (hp k hk hσk).2
    rw [hn] at this
    exact this
  · rw [← Finset.sum_div]
    apply div_self
    obtain ⟨k, hk, hσk⟩ := hex
    refine (Finset.sum_pos (fun j hj => ?_) ⟨k, ?_⟩).ne'
    · have := Finset.mem_filter.mp hj
      exact (hp j (by have := Finset.mem_range.mp this.1; omega) this.2).2
    · simp [hσk]; omega

/-! ### The densities are those of include/lm/bidir.h -/

/-- The path as seen from the end the subpath is sampled from. -/
def oriented (vs : List Vert) : TransDir → List Vert
  | .LE => vs
  | .EL => vs.reverse

theorem vertexAt_oriented (vs : List Vert) (dir : TransDir) (i : ℕ) : vertexAt vs i dir = (oriented vs dir)[i]? := by
  unfold vertexAt index
  by_cases h : i < vs.length
  · cases dir
    · rw [if_pos (by omega), if_pos rfl]; rfl
    · rw [if_pos (by omega), if_neg (by decide)]
      simp only [oriented]
      rw [List.getElem?_reverse h]
      congr 1; omega
  · rw [if_neg (by omega)]
    cases dir
    · exact (List.getElem?_eq_none (by simp only [oriented]; omega)).symm
    · exact (List.getElem?_eq_none (by simp only [oriented, List.length_reverse]; omega)).symm

theorem prodDens_le {W : World} {vs : List Vert} {k : ℕ} {q : ℝ} (h : prodDens W vs (k + 1) = some q) : ∃ p d, prodDens W vs k = some p ∧ dens W vs k = some d ∧ q = p * d := by
  rw [prodDens] at h
  obtain ⟨p, hp, h⟩ := bind_some h
  obtain ⟨d, hd, h⟩ := bind_some h
  simp only [Option.pure_def, Option.some.injEq] at h
  exact ⟨p, d, hp, hd, h.symm⟩

theorem prodDens_mono {W : World} {vs : List Vert} {j : ℕ} : ∀ (k : ℕ) {q : ℝ}, prodDens W vs (j + k) = some q → ∃ p, prodDens W vs j = some p
  | 0, q, h => ⟨q, h⟩
  | k + 1, q, h => by
    obtain ⟨p, -, hp, -⟩ := prodDens_le (k := j + k) h
    exact prodDens_mono k hp

theorem oriented_mem {vs : List Vert} {dir : TransDir} {i : ℕ} {v : Vert} (h : (oriented vs dir)[i]? = some v) : v ∈ vs := by
  have := List.mem_of_getElem? h
  cases dir
  · exact this
  · exact List.mem_reverse.mp this

theorem pdfLoop_dens {W : World} {vs : List Vert} {dir : TransDir} (hcomp : ∀ v ∈ vs, ∀ w, pdfComponent W v.sp w v.comp = some 1) :
    ∀ (k i : ℕ) (p q : ℝ), prodDens W (oriented vs dir) (i + 1) = some p → prodDens W (oriented vs dir) (i + 1 + k) = some q →
      (i = 0 → ∀ v, (oriented vs dir)[0]? = some v → isConnectableEndpoint W v.sp = some true) → pdfLoop W vs dir k i p = some q := by
  intro k
  induction k with
  | zero => intro i p q hp hq _; rw [Nat.add_zero, hp] at hq; cases hq; rfl
  | succ k ih =>
    intro i p q hp hq hc
    obtain ⟨p', hp'⟩ := prodDens_mono (j := i + 2) k (by rw [← hq]; congr 1; omega)
    obtain ⟨p0, d, hp0, hd, rfl⟩ := prodDens_le (k := i + 1) hp'
    rw [hp] at hp0; cases hp0
    rw [dens] at hd
    obtain ⟨v, hv, hd⟩ := bind_some hd
    obtain ⟨v', hv', hd⟩ := bind_some hd
    obtain ⟨wi, hwi, hd⟩ := bind_some hd
    obtain ⟨wo, hwo, hd⟩ := bind_some hd
    have hprev : direction (some v) (vertexAt vs ((i : Int) - 1) dir) = some wi := by
      rw [← hwi]
      by_cases h0 : i = 0
      · subst h0
        rw [if_pos rfl]
        have : vertexAt vs (((0 : ℕ) : Int) - 1) dir = none := by simp [vertexAt]
        rw [this]
      · rw [if_neg h0, show (i : Int) - 1 = ((i - 1 : ℕ) : Int) by omega, vertexAt_oriented]
    have hd' : (pdfDirection W v.sp wi wo v.comp false).bind (fun x => convertToArea x v.sp.geom v'.sp.geom) = some d := by
      by_cases h0 : i = 0
      · subst h0
        rw [if_pos rfl] at hd
        simp only [hc rfl v hv, Option.bind_eq_bind, Option.bind_some, if_true] at hd
        exact hd
      · rw [if_neg h0] at hd
        simp only [Option.bind_eq_bind, Option.bind_some, if_true] at hd
        exact hd
    obtain ⟨x, hx, hxa⟩ := bind_some hd'
    have c1 : vertexAt vs (i : Int) dir = some v := by rw [vertexAt_oriented, hv]
    have c2 : vertexAt vs ((i : Int) + 1) dir = some v' := by rw [show (i : Int) + 1 = ((i + 1 : ℕ) : Int) by omega, vertexAt_oriented, hv']
    rw [pdfLoop]
    simp only [c1, c2, hprev, hwo, hcomp v' (oriented_mem hv'), hx, hxa, Option.bind_eq_bind, Option.bind_some, one_mul]
    rw [show (i : Int) + 1 = ((i + 1 : ℕ) : Int) by omega]
    exact ih (i + 1) (p * d) q hp' (by rw [← hq]; congr 1; omega) (fun h => absurd h (by omega))

theorem subpathPdf_dens {W : World} {vs : List Vert} {dir : TransDir} (hcomp : ∀ v ∈ vs, ∀ w, pdfComponent W v.sp w v.comp = some 1) {l : ℕ} {q : ℝ}
    (hq : prodDens W (oriented vs dir) l = some q) (h1 : l = 1 → ∀ v, (oriented vs dir)[0]? = some v → isConnectableEndpoint W v.sp = some true) :
    subpathPdf W vs l dir = some q := by
  unfold subpathPdf
  by_cases hl : l = 0
  · subst hl; rw [if_pos rfl, ← hq]; rfl
  rw [if_neg hl]
  obtain ⟨m, rfl⟩ : ∃ m, l = m + 1 := ⟨l - 1, by omega⟩
  obtain ⟨p1, hp1⟩ := prodDens_mono (j := 1) m (by rw [← hq]; congr 1; omega)
  have hp1' := hp1
  rw [prodDens] at hp1
  obtain ⟨a, ha, hp1⟩ := bind_some hp1
  rw [prodDens] at ha; cases ha
  obtain ⟨d0, hd0, hp1⟩ := bind_some hp1
  simp only [Option.pure_def, Option.some.injEq, one_mul] at hp1
  subst hp1
  rw [dens] at hd0
  obtain ⟨v0, hv0, hd0⟩ := bind_some hd0
  obtain ⟨conn, hconn, hd0⟩ := bind_some hd0
  have c0 : vertexAt vs 0 dir = some v0 := by rw [show (0 : Int) = ((0 : ℕ) : Int) from rfl, vertexAt_oriented, hv0]
  simp only [c0, hconn, Option.bind_eq_bind, Option.bind_some]
  cases conn with
  | true =>
    simp only [if_true] at hd0 ⊢
    simp only [hd0, hcomp v0 (oriented_mem hv0), Option.bind_some, mul_one, Nat.add_sub_cancel]
    have := pdfLoop_dens hcomp (dir := dir) m 0 d0 q hp1' (by rw [← hq]; congr 1; omega) (fun _ v hv => by rw [hv0] at hv; cases hv; exact hconn)
    exact this
  | false =>
    simp only [Bool.false_eq_true, if_false, Option.some.injEq] at hd0 ⊢
    subst hd0
    have hm : m ≠ 0 := by
      rintro rfl
      have := h1 rfl v0 hv0
      rw [hconn] at this; cases this
    obtain ⟨j, rfl⟩ : ∃ j, m = j + 1 := ⟨m - 1, by omega⟩
    obtain ⟨p2, hp2⟩ := prodDens_mono (j := 2) j (by rw [← hq]; congr 1; omega)
    obtain ⟨p1, d1, hp1, hd1, rfl⟩ := prodDens_le (k := 1) hp2
    rw [hp1'] at hp1; cases hp1
    rw [dens] at hd1
    obtain ⟨u, hu, hd1⟩ := bind_some hd1
    obtain ⟨v1, hv1, hd1⟩ := bind_some hd1
    obtain ⟨wi, hwi, hd1⟩ := bind_some hd1
    obtain ⟨wo, hwo, hd1⟩ := bind_some hd1
    rw [hv0] at hu; cases hu
    simp only [if_true, hconn, Option.bind_eq_bind, Option.bind_some, Bool.false_eq_true, if_false] at hd1
    obtain ⟨x, hx, hxa⟩ := bind_some hd1
    have c1 : vertexAt vs 1 dir = some v1 := by rw [show (1 : Int) = ((1 : ℕ) : Int) from rfl, vertexAt_oriented, hv1]
    simp only [c1, hwo, hx, hxa, hcomp v0 (oriented_mem hv0), hcomp v1 (oriented_mem hv1), Option.bind_some, mul_one]
    rw [show j + 1 + 1 - 2 = j by omega]
    have := pdfLoop_dens hcomp (dir := dir) j 1 (1 * d1) q hp2 (by rw [← hq]; congr 1; omega) (fun h => absurd h (by omega))
    rw [one_mul] at this
    exact this

/-- C51. The densities in the weights are those `pdf_bidir` computes for the same path and strategy, if no component is chosen at random (the optimized renderer leaves the probabilities of components out). -/
theorem C51_density {W : World} {vs : List Vert} (h2 : 2 ≤ vs.length) (hcomp : ∀ v ∈ vs, ∀ w, pdfComponent W v.sp w v.comp = some 1) {k : ℕ} (hk : k ≤ vs.length) {p : ℝ}
    (hs : isSamplable W vs k = some true) (hp : stratDens W vs k = some p) : pdfBidir W vs k = some p := by
  unfold stratDens at hp
  obtain ⟨a, ha, hp⟩ := bind_some hp
  obtain ⟨b, hb, hp⟩ := bind_some hp
  simp only [Option.pure_def, Option.some.injEq] at hp
  have hconn : 0 < k → 0 < vs.length - k → _ := fun x y => samplable_conn (W := W) (vs := vs) (s := k) (t := vs.length - k) (by omega) x y hs
  have A := subpathPdf_dens hcomp (dir := .LE) ha (fun h1 v hv => (hconn (by omega) (by omega)).1 h1 v hv)
  have B := subpathPdf_dens hcomp (dir := .EL) hb (fun h1 v hv => by
    refine (hconn (by omega) (by omega)).2 h1 v ?_
    have hv' : vs.reverse[0]? = some v := hv
    rw [List.getElem?_reverse (by omega)] at hv'
    rw [← hv']; congr 1; omega)
  unfold pdfBidir
  simp only [hs, A, B, Option.bind_eq_bind, Option.bind_some, Bool.not_true, Bool.false_eq_true, if_false, Option.pure_def]
  rw [hp]

/-! ### Example: point light, diffuse surface, camera -/

noncomputable def exCL : CV := ⟨exL.sp, 0, ⟨0, 0, -1⟩, 0, 1, 0, V3.all 1⟩
noncomputable def exCS : CV := ⟨exS.sp, 0, 0, ⟨0, 0, 1⟩, pdfSphere, 0, V3.all (1 / pdfSphere)⟩
noncomputable def exCE : CV := ⟨exE.sp, 0, ⟨0, 0, -1⟩, 0, 1, 0, V3.all 1⟩

theorem exSubL : Subpath exLine [exCL, exCS] .light := by
  refine start_two (conn := true) (next := pdfSphere) rfl rfl ?_ ⟨exDirLS, ?_⟩ ?_ rfl rfl rfl
  · show startPdf exLine exL.sp = some 1
    have ec : isConnectableEndpoint exLine exL.sp = some true := rfl
    simp [startPdf, ec, exPosL]
  · rw [show exCS.wRev = ⟨0, 0, 1⟩ from rfl]; exact exDirSL
  · have : geometryTerm exCL.sp.geom exCS.sp.geom = some 1 := exGLS
    rw [convertToArea, this]; simp; rfl
theorem exSubE : Subpath exLine [exCE] .camera := by
  refine start_one rfl rfl ?_
  have ec : isConnectableEndpoint exLine exE.sp = some true := rfl
  have epp : pdfPosition exLine exE.sp = some 1 := rfl
  show startPdf exLine exE.sp = some 1
  simp [startPdf, ec, epp]

theorem exFull : (fullPath [exCL, exCS] [exCE] 2 1).map CV.vert = exPath := rfl

theorem exPdfE : pdfDirection exLine exE.sp 0 ⟨0, 0, -1⟩ 0 false = some (1 / 8) := by
  have : exLine.cameraAt exE.sp.primitive = some exCam := rfl
  have hk : exE.sp.kind = .camera := rfl
  simp only [pdfDirection, hk, this]
  simp [camPdfDirection, rasterPosition, camJ, toEye, exCam, V3.dot, divF]; norm_num
theorem exPdfS : ∃ x, pdfDirection exLine exS.sp ⟨0, 0, 1⟩ ⟨0, 0, 1⟩ 0 false = some x := ⟨_, rfl⟩
theorem exGES : geometryTerm exE.sp.geom exS.sp.geom = some (1 / 4) := by
  simp [geometryTerm, exE, exS, makeDegenerated, V3.dot]; norm_num
theorem exGSL : geometryTerm exS.sp.geom exL.sp.geom = some 1 := by
  simp [geometryTerm, exL, exS, makeDegenerated, V3.dot]; norm_num

theorem exFix : ∃ P, fixup exLine (fullPath [exCL, exCS] [exCE] 2 1) 2 1 = some P := by
  obtain ⟨x, hx⟩ := exPdfS
  have i1 : cvAt (fullPath [exCL, exCS] [exCE] 2 1) (idx (fullPath [exCL, exCS] [exCE] 2 1).length (((2 : ℕ) : Int) - 1) .LE) = some exCS := rfl
  have i2 : cvAt (fullPath [exCL, exCS] [exCE] 2 1) (idx (fullPath [exCL, exCS] [exCE] 2 1).length (((1 : ℕ) : Int) - 1) .EL) = some exCE.flip := rfl
  have i3 : cvAt (fullPath [exCL, exCS] [exCE] 2 1) (idx (fullPath [exCL, exCS] [exCE] 2 1).length (((2 : ℕ) : Int) - 2) .LE) = some exCL := rfl
  have i4 : cvAt (fullPath [exCL, exCS] [exCE] 2 1) (idx (fullPath [exCL, exCS] [exCE] 2 1).length (((1 : ℕ) : Int) - 2) .EL) = none := rfl
  have d1 : direction (some exCS.vert) (some exCE.flip.vert) = some ⟨0, 0, 1⟩ := exDirSE
  have d2 : direction (some exCE.flip.vert) (some exCS.vert) = some ⟨0, 0, -1⟩ := exDirES
  have n1 : newRev exLine (some { exCS with wFwd := ⟨0, 0, 1⟩ }) (some { exCE.flip with wRev := ⟨0, 0, -1⟩ }) = some (1 / 32) := by
    show (pdfDirection exLine exE.sp 0 ⟨0, 0, -1⟩ 0 false).bind (fun p => convertToArea p exE.sp.geom exS.sp.geom) = some (1 / 32)
    rw [exPdfE]; simp only [Option.bind_some, convertToArea, exGES, Option.map_some]; norm_num
  have n2 : newFwd exLine (some { exCS with wFwd := ⟨0, 0, 1⟩ }) (some { exCE.flip with wRev := ⟨0, 0, -1⟩ }) = some (x * (1 / 4)) := by
    show (pdfDirection exLine exS.sp ⟨0, 0, 1⟩ ⟨0, 0, 1⟩ 0 false).bind (fun p => convertToArea p exS.sp.geom exE.sp.geom) = _
    rw [hx]; simp only [Option.bind_some, convertToArea, exGSE, Option.map_some]
  have n3 : newRevPrev exLine (some exCL) (some { exCS with wFwd := ⟨0, 0, 1⟩ }) (some { exCE.flip with wRev := ⟨0, 0, -1⟩ }) = some (x * 1) := by
    show (pdfDirection exLine exS.sp ⟨0, 0, 1⟩ ⟨0, 0, 1⟩ 0 false).bind (fun p => convertToArea p exS.sp.geom exL.sp.geom) = _
    rw [hx]; simp only [Option.bind_some, convertToArea, exGSL, Option.map_some]
  have n4 : newFwdPrev exLine none (some { exCE.flip with wRev := ⟨0, 0, -1⟩ }) (some { exCS with wFwd := ⟨0, 0, 1⟩ }) = some 0 := rfl
  unfold fixup
  simp only [i1, i2, i3, i4, d1, d2, Option.bind_eq_bind, Option.bind_some, Option.map_some, n1, n2, n3, n4]
  exact ⟨_, rfl⟩

theorem exDens : dens exLine exPath 0 = some 1 ∧ dens exLine exPath 1 = some pdfSphere ∧ dens exLine exPath.reverse 0 = some 1 ∧ dens exLine exPath.reverse 1 = some (1 / 32) := by
  have cL : isConnectableEndpoint exLine exL.sp = some true := rfl
  have cE : isConnectableEndpoint exLine exE.sp = some true := rfl
  have epp : pdfPosition exLine exE.sp = some 1 := rfl
  have ed : pdfDirection exLine exL.sp 0 ⟨0, 0, -1⟩ exL.comp false = some pdfSphere := rfl
  have ee : pdfDirection exLine exE.sp 0 ⟨0, 0, -1⟩ exE.comp false = some (1 / 8) := exPdfE
  have dn : ∀ v : Vert, direction (some v) none = some 0 := fun _ => rfl
  refine ⟨?_, ?_, ?_, ?_⟩
  · simp [dens, exPath, cL, exPosL]
  · simp [dens, exPath, cL, exDirLS, dn, ed, convertToArea, exGLS]
  · simp [dens, exPath, cE, epp]
  · simp [dens, exPath, cE, exDirES, dn, ee, convertToArea, exGES]; norm_num

/-- The weight of strategy 2 of the path light - surface - camera: connecting the vertex hit from the light to the camera. -/
example : misWeightOpt exLine [exCL, exCS] [exCE] 2 1 = some ((1 / (4 * Real.pi)) / (1 / 32 + 1 / (4 * Real.pi))) := by
  obtain ⟨P, hP⟩ := exFix
  obtain ⟨d0, d1, r0, r1⟩ := exDens
  have hπ := Real.pi_pos
  have s1 : stratDens exLine exPath 1 = some (1 / 32) := by
    have hl : exPath.length - 1 = 2 := rfl
    simp [stratDens, prodDens, hl, d0, r0, r1]
  have s2 : stratDens exLine exPath 2 = some (1 / (4 * Real.pi)) := by
    have hl : exPath.length - 2 = 1 := rfl
    simp [stratDens, prodDens, hl, d0, d1, r0, pdfSphere]
  have := C51_balance (W := exLine) (L := [exCL, exCS]) (E := [exCE]) (s := 2) (t := 1) (by decide) (by decide) (by decide) exSubL exSubE P exPath hP exFull.symm
    (fun k => k == 1 || k == 2) (fun k hk => by have hk : k ≤ 3 := hk; interval_cases k <;> rfl) rfl
    (fun k => if k = 1 then 1 / 32 else 1 / (4 * Real.pi)) (fun k hk hσ => by
      have hk : k ≤ 3 := hk
      interval_cases k
      · cases hσ
      · exact ⟨s1, by norm_num⟩
      · exact ⟨s2, by positivity⟩
      · cases hσ) (by simp; positivity)
  rw [this]
  have hf : ((range (2 + 1 + 1)).filter (fun k => (k == 1 || k == 2) = true)) = {1, 2} := by decide
  rw [hf]
  simp

/-- Component choices are certain in this scene, so the densities are those of pdf_bidir. -/
example : ∀ v ∈ exPath, ∀ w, pdfComponent exLine v.sp w v.comp = some 1 := by
  intro v hv w
  simp only [exPath, List.mem_cons, List.not_mem_nil, or_false] at hv
  rcases hv with rfl | rfl | rfl <;> rfl

/-- A ray from the light straight down onto the surface: the cache of C51_cache. -/
example : HitsOnRay (fun o d => if o = ⟨0, 0, -1⟩ ∧ d = ⟨0, 0, -1⟩ then some exS.sp else none) ∧ StepOk .light ⟨.ok exL.sp ⟨0, 0, -1⟩ (V3.all 1), fun _ _ _ => .fail, fun _ _ => some (0, 1)⟩ := by
  constructor
  · intro o d h hh
    dsimp only at hh
    split at hh
    · next e =>
      cases hh
      refine ⟨rfl, fun h => by simp [exS] at h, fun _ => ⟨1, one_pos, ?_⟩⟩
      rw [e.1, e.2]
      ext <;> simp [exS]; norm_num
    · cases hh
  · refine ⟨fun sp wo C h => ?_, fun _ _ _ wo C h => by cases h⟩
    cases h
    exact ⟨rfl, by simp [V3.dot], fun h => by simp [exL, makeDegenerated] at h⟩

end LM.Path
