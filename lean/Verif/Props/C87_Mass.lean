import Verif.Props.C87_Lamp
/-
  C87: with what density each strategy samples a full path.
-/
namespace LM.Chain
open MeasureTheory
variable {V : Type} [MeasurableSpace V] (A : Measure V) [SFinite A]

theorem paths_ae {P : V → Prop} (hP : ∀ᵐ y ∂A, P y) (n : ℕ) : ∀ᵐ l ∂paths A n, ∀ y ∈ l, P y := by
  set N := toMeasurable A {x | ¬ P x} with hN
  have hN0 : A N = 0 := by rw [hN, measure_toMeasurable]; exact ae_iff.mp hP
  have hNm : MeasurableSet N := measurableSet_toMeasurable _ _
  have hNP : ∀ y, y ∉ N → P y := fun y hy => by
    by_contra c
    exact hy (subset_toMeasurable A {x | ¬ P x} c)
  have hs : MeasurableSet {l : List V | ∀ y ∈ l, y ∉ N} := by
    refine measurableSet_list.mpr fun k => ?_
    have e : (fun v : Fin k → V => List.ofFn v) ⁻¹' {l : List V | ∀ y ∈ l, y ∉ N} = ⋂ i : Fin k, {v | v i ∈ Nᶜ} := by
      ext v
      simp only [Set.mem_preimage, Set.mem_ofPred_eq, Set.mem_iInter, Set.mem_compl_iff]
      constructor
      · exact fun h i => h _ (by simp [List.mem_ofFn])
      · intro h y hy
        obtain ⟨i, rfl⟩ := (List.mem_ofFn' _ _).mp hy
        exact h i
    rw [e]
    exact MeasurableSet.iInter fun i => measurable_pi_apply i hNm.compl
  have key : ∀ n, ∀ᵐ l ∂paths A n, ∀ y ∈ l, y ∉ N := fun n => by
    induction n with
    | zero =>
      unfold paths
      rw [ae_dirac_iff hs]
      simp
    | succ n ih =>
      unfold paths
      rw [ae_map_iff measurable_cons.aemeasurable hs]
      have h1 : ∀ᵐ q ∂A.prod (paths A n), q.1 ∉ N := Measure.quasiMeasurePreserving_fst.ae (p := fun y => y ∉ N) (by rw [ae_iff]; simpa using hN0)
      have h2 : ∀ᵐ q ∂A.prod (paths A n), ∀ y ∈ q.2, y ∉ N := Measure.quasiMeasurePreserving_snd.ae ih
      filter_upwards [h1, h2] with q a b
      intro y hy
      rcases List.mem_cons.mp hy with rfl | hy
      · exact a
      · exact b y hy
  exact (key n).mono fun l hl y hy => hNP y (hl y hy)

end LM.Chain

namespace LM.Transport
open MeasureTheory LM LM.Surface LM.Material LM.Light LM.MathF LM.Path LM.Render LM.Solid Set
open scoped ENNReal

namespace Site
open Chain
variable {S : Site}

/-- The densities are not negative, and positive where light is transported; the probabilities of the components of a material add up to 1. -/
structure Proper (S : Site) : Prop where
  We : ∀ d, 0 ≤ S.We d
  P : ∀ j ∈ S.Fs.map (·.1), ∀ c ∈ S.C j, ∀ p wi wo, V3.dot wi wi = 1 → V3.dot wo wo = 1 → V3.dot wi (S.vertex j p).geom.n ≠ 0 → 0 ≤ S.P j c p wi wo ∧ (S.f j c p wi wo ≠ 0 → 0 < S.P j c p wi wo)
  pc : ∀ j ∈ S.Fs.map (·.1), ∀ c ∈ S.C j, ∀ p wi, V3.dot wi wi = 1 → V3.dot wi (S.vertex j p).geom.n ≠ 0 → 0 < S.pc j c p wi
  sum : ∀ j ∈ S.Fs.map (·.1), ∀ p wi, V3.dot wi wi = 1 → V3.dot wi (S.vertex j p).geom.n ≠ 0 → ∑ c ∈ S.C j, S.pc j c p wi = 1
  pA : ∀ j ∈ S.Fs.map (·.1), 0 ≤ S.pA j
  PL : ∀ j ∈ S.Fs.map (·.1), ∀ p d, 0 ≤ S.PL j p d
  lit : ∀ j ∈ S.Fs.map (·.1), ∀ p d, S.Le j p d ≠ 0 → 0 < S.pA j ∧ 0 < S.PL j p d

variable (R : S.Proper)

/-! ### Subpaths whose points are seen from each other -/

include R in
theorem Proper.pick {o : V3 ℝ} {y : Node} (hy : S.Fit y) (hop : S.Hop o y.1) : 0 < S.pickR o y := R.pc _ hy.1 _ hy.2 _ _ (unit_to hop.1.symm) hop.2

theorem facing_nonneg (o : V3 ℝ) (y : Spot) : 0 ≤ S.facing o y := div_nonneg (abs_nonneg _) (dot_self_nonneg _)

theorem cos_nonneg (y : Spot) (q : V3 ℝ) : 0 ≤ S.cosAt y q := abs_nonneg _

include R in
theorem Proper.go {w : V3 ℝ} {x : Node} {y : Spot} (hx : S.Fit x) (hw : S.Hop w x.1) (hne : x.1.2 ≠ y.2) : 0 ≤ S.goR w x y :=
  mul_nonneg (mul_nonneg (R.P _ hx.1 _ hx.2 _ _ _ (unit_to hw.1.symm) (unit_to hne) hw.2).1 (cos_nonneg _ _)) (facing_nonneg _ _)

include R in
theorem Proper.link {w : V3 ℝ} {x y : Node} (hx : S.Fit x) (hy : S.Fit y) (hw : S.Hop w x.1) (hop : S.Hop x.1.2 y.1) : 0 ≤ S.linkR w x y := mul_nonneg (R.go hx hw hop.1) (R.pick hy hop).le

include R in
theorem Proper.lks {w : V3 ℝ} {x : Node} {l : List Node} (hx : S.Fit x) (hl : ∀ y ∈ l, S.Fit y) (hw : S.Hop w x.1) (hop : S.Hops x.1.2 l) (hs : S.Sights x.1.2 l) : S.lks w x l = ENNReal.ofReal (S.linksR w x l) ∧ 0 ≤ S.linksR w x l := by
  classical
  induction l generalizing w x with
  | nil => exact ⟨ENNReal.ofReal_one.symm, zero_le_one⟩
  | cons y l ih =>
    obtain ⟨h1, h2⟩ := ih (hl y (by simp)) (fun y' hy' => hl y' (by simp [hy'])) hop.1 hop.2 hs.2
    have h3 := R.link hx (hl y (by simp)) hw hop.1
    refine ⟨?_, mul_nonneg h3 h2⟩
    simp only [Site.lks, linksR]
    rw [h1, ENNReal.ofReal_mul h3, Site.lk, if_pos hs.1]

include R in
theorem Proper.eyes {l : List Node} (hl : ∀ y ∈ l, S.Fit y) (hop : S.Hops S.eye l) (hs : S.Sights S.eye l) : S.eyes l = ENNReal.ofReal (S.eyesR l) ∧ 0 ≤ S.eyesR l := by
  classical
  cases l with
  | nil => exact ⟨ENNReal.ofReal_one.symm, zero_le_one⟩
  | cons y l =>
    obtain ⟨h1, h2⟩ := R.lks (hl y (by simp)) (fun y' hy' => hl y' (by simp [hy'])) hop.1 hop.2 hs.2
    have h3 : 0 ≤ S.eyeR y.1 * S.pickR S.eye y := mul_nonneg (mul_nonneg (R.We _) (facing_nonneg _ _)) (R.pick (hl y (by simp)) hop.1).le
    refine ⟨?_, mul_nonneg h3 h2⟩
    simp only [Site.eyes, eyesR]
    rw [h1, ENNReal.ofReal_mul h3, eyeK, if_pos hs.1]

include R in
theorem Proper.lamps {z : Spot} (hz : z.1 ∈ S.Fs.map (·.1)) {l : List Node} (hl : ∀ y ∈ l, S.Fit y) (hop : S.Hops z.2 l) (hs : S.Sights z.2 l) : S.lamps z l = ENNReal.ofReal (S.lampsR z l) ∧ 0 ≤ S.lampsR z l := by
  classical
  cases l with
  | nil => exact ⟨rfl, R.pA _ hz⟩
  | cons y l =>
    obtain ⟨h1, h2⟩ := R.lks (hl y (by simp)) (fun y' hy' => hl y' (by simp [hy'])) hop.1 hop.2 hs.2
    have h3 : 0 ≤ S.lampR z y.1 * S.pickR z.2 y := mul_nonneg (mul_nonneg (mul_nonneg (R.PL _ hz _ _) (cos_nonneg _ _)) (facing_nonneg _ _)) (R.pick (hl y (by simp)) hop.1).le
    refine ⟨?_, mul_nonneg (mul_nonneg (R.pA _ hz) h3) h2⟩
    simp only [Site.lamps, lampsR]
    rw [h1, ENNReal.ofReal_mul (mul_nonneg (R.pA _ hz) h3), ENNReal.ofReal_mul (R.pA _ hz), lampK, if_pos hs.1, mul_assoc]

/-! ### Backwards -/

theorem links_of {o : V3 ℝ} {z : Spot} {l : List Node} (h1 : S.Hops z.2 l) (h2 : S.Hops o l.reverse) (h3 : S.Hop (lastP o l.reverse) z) : S.Links z l := by
  induction l generalizing z with
  | nil => trivial
  | cons y l ih =>
    rw [lastP_reverse] at h3
    rw [List.reverse_cons, hops_append] at h2
    exact ⟨h1.1, h3, ih h1.2 h2.1 h2.2.1⟩

theorem Sound.sights_of (h : S.Sound) {o : V3 ℝ} {z : Spot} (hz : Placed S z) {l : List Node} (hl : S.Links z l) (hp : ∀ y ∈ l, Placed S y.1) (hs : Seen S o l.reverse z) : S.Sights z.2 l := by
  induction l generalizing z with
  | nil => trivial
  | cons y l ih =>
    have hy := hp y (by simp)
    rw [List.reverse_cons, seen_append] at hs
    obtain ⟨a, b, c⟩ := hs
    refine ⟨(h.sees_swap hz hy hl.1 hl.2.1).mpr c, ih hy hl.2.2 (fun y' hy' => hp y' (by simp [hy'])) ?_⟩
    have := (seen_append (S := S) (o := o) (a := l.reverse) (b := []) (z := y.1)).mpr ⟨a, b⟩
    rwa [List.append_nil] at this

theorem whole_seen {i : Fin 3} {m : List Node} {z : Spot} (hw : S.whole i m z ≠ 0) : Seen S S.eye m z := by
  by_contra c
  exact hw (whole_unseen i c)

include R in
/-- The subpaths have, together, the density of the path. -/
theorem Proper.mass (h : S.Sound) {i : Fin 3} {e l : List Node} {z : Spot} (hw : S.whole i (e ++ l.reverse) z ≠ 0) (he : ∀ y ∈ e, S.Fit y) (hl : ∀ y ∈ l, S.Fit y ∧ Placed S y.1) (hz : Placed S z) :
    S.eyes e * S.lamps z l = ENNReal.ofReal (S.dens (e ++ l.reverse) z (l.length + 1)) := by
  obtain ⟨h1, h2⟩ := whole_ne hw
  have h3 := whole_seen hw
  rw [seen_append] at h3
  have h4 := hops_append.mp h2.there
  have h5 := h2.back
  rw [List.reverse_append, List.reverse_reverse, hops_append] at h5
  rw [lastP_append] at h1
  have hlk := links_of h5.1 h4.2 h1
  have hsl := h.sights_of hz hlk (fun y hy => (hl y hy).2) h3.2
  obtain ⟨a1, a2⟩ := R.eyes he h4.1 h3.1
  obtain ⟨b1, b2⟩ := R.lamps hz.prim (fun y hy => (hl y hy).1) h5.1 hsl
  rw [a1, b1, dens_join, ENNReal.ofReal_mul b2, mul_comm]

/-- The share of a strategy in the value of a path. -/
noncomputable def share (S : Site) (ω : Weights) (m : List Node) (z : Spot) (s : ℕ) : ℝ≥0∞ :=
  if 0 < S.dens m z s then ENNReal.ofReal (ω m z s) else 0

theorem mass_worth (ω : Weights) (i : Fin 3) (s : ℕ) (m : List Node) (z : Spot) : ENNReal.ofReal (S.dens m z s) * S.worth ω i s m z = S.share ω m z s * S.whole i m z := by
  unfold worth share
  by_cases hd : 0 < S.dens m z s
  · rw [if_pos hd, ← mul_assoc, ← mul_assoc, ENNReal.mul_inv_cancel (ENNReal.ofReal_pos.mpr hd).ne' ENNReal.ofReal_ne_top, one_mul]
  · rw [if_neg hd, ENNReal.ofReal_of_nonpos (not_lt.mp hd), zero_mul, zero_mul]

include R in
theorem Proper.mass_worth (h : S.Sound) (ω : Weights) {i : Fin 3} {e l : List Node} {z : Spot} (he : ∀ y ∈ e, S.Fit y) (hl : ∀ y ∈ l, S.Fit y ∧ Placed S y.1) (hz : Placed S z) :
    S.eyes e * (S.lamps z l * S.worth ω i (l.length + 1) (e ++ l.reverse) z) = S.share ω (e ++ l.reverse) z (l.length + 1) * S.whole i (e ++ l.reverse) z := by
  by_cases hw : S.whole i (e ++ l.reverse) z = 0
  · rw [worth_zero hw, hw]; simp
  · rw [← mul_assoc, R.mass h hw he hl hz, Site.mass_worth]

/-! ### Paths that the eye subpath alone reaches -/

include R in
/-- The density of an eye subpath that ends at z, with component c. -/
theorem Proper.eyes_last {i : Fin 3} {m : List Node} {z : Spot} (hw : S.whole i m z ≠ 0) (hm : ∀ y ∈ m, S.Fit y) (hz : z.1 ∈ S.Fs.map (·.1)) {c : ℕ} (hc : c ∈ S.C z.1) :
    S.eyes (m ++ [(z, c)]) = ENNReal.ofReal (S.dens m z 0 * S.pc z.1 c z.2 (dirOf (lastP S.eye m - z.2))) := by
  obtain ⟨h1, h2⟩ := whole_ne hw
  have h3 := whole_seen hw
  have hs : S.Sights S.eye (m ++ [(z, c)]) := by
    have := (seen_append (S := S) (o := S.eye) (a := m) (b := []) (z := z)).mp (by rw [List.append_nil]; exact h3)
    clear h1 h2 h3 hw
    revert this
    generalize S.eye = o
    induction m generalizing o with
    | nil => exact fun h => ⟨h.2, trivial⟩
    | cons y m ih => exact fun h => ⟨h.1.1, ih (fun y' hy' => hm y' (by simp [hy'])) _ ⟨h.1.2, h.2⟩⟩
  have hop : S.Hops S.eye (m ++ [(z, c)]) := hops_append.mpr ⟨h2.there, h1, trivial⟩
  have hfit : ∀ y ∈ m ++ [(z, c)], S.Fit y := fun y hy => by
    rcases List.mem_append.mp hy with hy | hy
    · exact hm y hy
    · rw [List.mem_singleton.mp hy]; exact ⟨hz, hc⟩
  rw [(R.eyes hfit hop hs).1, eyesR_snoc, ← mul_assoc]
  rfl

include R in
theorem Proper.mass0 {i : Fin 3} {m : List Node} {z : Spot} (hw : S.whole i m z ≠ 0) (hm : ∀ y ∈ m, S.Fit y) (hz : z.1 ∈ S.Fs.map (·.1)) : ∑ c ∈ S.C z.1, S.eyes (m ++ [(z, c)]) = ENNReal.ofReal (S.dens m z 0) := by
  obtain ⟨h1, h2⟩ := whole_ne hw
  have h3 := whole_seen hw
  have hsum := R.sum z.1 hz z.2 (dirOf (lastP S.eye m - z.2)) (unit_to h1.1.symm) h1.2
  have key : ∀ c ∈ S.C z.1, S.eyes (m ++ [(z, c)]) = ENNReal.ofReal (S.dens m z 0 * S.pc z.1 c z.2 (dirOf (lastP S.eye m - z.2))) := fun c hc => R.eyes_last hw hm hz hc
  rw [Finset.sum_congr rfl key, ← ENNReal.ofReal_sum_of_nonneg, ← Finset.mul_sum, hsum, mul_one]
  intro c hc
  refine mul_nonneg ?_ (R.pc _ hz _ hc _ _ (unit_to h1.1.symm) h1.2).le
  have hE := (R.eyes hm h2.there ((seen_append (S := S) (o := S.eye) (a := m) (b := []) (z := z)).mp (by rw [List.append_nil]; exact h3)).1).2
  refine mul_nonneg hE ?_
  rcases List.eq_nil_or_concat m with rfl | ⟨m', y, rfl⟩
  · exact mul_nonneg (R.We _) (facing_nonneg _ _)
  · rw [List.concat_eq_append] at *
    have e : ∀ (w : V3 ℝ) (x : Node) (l : List Node), S.lastR w x (l ++ [y]) z = S.goR (lastP x.1.2 l) y z := fun w x l => by
      induction l generalizing w x with
      | nil => rfl
      | cons a l ih => exact ih _ _
    have e' : S.reachR (m' ++ [y]) z = S.goR (lastP S.eye m') y z := by
      cases m' with
      | nil => rfl
      | cons a l => exact e _ _ _
    rw [e']
    have hh := hops_append.mp h2.there
    rw [lastP_snoc] at h1
    exact R.go (hm y (by simp)) hh.2.1 h1.1

include R in
theorem Proper.mass_worth0 (ω : Weights) {i : Fin 3} {m : List Node} {z : Spot} (hm : ∀ y ∈ m, S.Fit y) (hz : z.1 ∈ S.Fs.map (·.1)) :
    ∑ c ∈ S.C z.1, S.eyes (m ++ [(z, c)]) * S.worth ω i 0 m z = S.share ω m z 0 * S.whole i m z := by
  by_cases hw : S.whole i m z = 0
  · rw [worth_zero hw, hw]; simp
  · rw [← Finset.sum_mul, R.mass0 hw hm hz, Site.mass_worth]

end Site

end LM.Transport
