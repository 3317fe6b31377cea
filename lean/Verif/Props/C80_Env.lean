import Verif.Props.C80_Direct
import Verif.Props.C46_Env
import Mathlib.MeasureTheory.Constructions.BorelSpace.Complex
import Mathlib.MeasureTheory.Function.Floor
import Mathlib.MeasureTheory.Function.SpecialFunctions.Basic
/-
  C80: image-based environment lights sample directions with the density they report.
-/
namespace LM.Solid
open MeasureTheory LM Set LM.MathF LM.Surface LM.Material LM.Light
open scoped ENNReal Real

theorem uniform2_prod : uniform2 = uniform1.prod uniform1 := by
  unfold uniform2 uniform1
  rw [Measure.prod_restrict]; rfl

instance : SFinite uniform1 := by unfold uniform1; infer_instance
instance : SFinite uniform2 := by unfold uniform2; infer_instance

theorem cov_cell (n k : Nat) (hn : 0 < n) : uniform1.map (fun a : ℝ => ((k : ℝ) + a) / n) = ENNReal.ofReal n • volume.restrict (Ico ((k : ℝ) / n) ((k + 1 : ℝ) / n)) := by
  have hnK : (0 : ℝ) < n := by exact_mod_cast hn
  have hm : Measurable fun a : ℝ => ((k : ℝ) + a) / n := (measurable_id.const_add _).div_const _
  refine Measure.ext_of_lintegral _ fun f hf => ?_
  rw [lintegral_map hf hm, lintegral_smul_measure, smul_eq_mul]
  unfold uniform1
  rw [← restrict_Ioo_eq_restrict_Ico, ← restrict_Ioo_eq_restrict_Ico]
  have h := cov (a := 0) (b := 1) (c := (k : ℝ) / n) (d := (k + 1 : ℝ) / n) (fun x => ((k : ℝ) + x) / n) (fun _ => 1 / n) ?_ ?_ ?_ f
  · rw [h, lintegral_const_mul' _ _ ENNReal.ofReal_ne_top, ← mul_assoc, ← ENNReal.ofReal_mul hnK.le, abs_of_pos (by positivity), mul_one_div_cancel hnK.ne']
    simp
  · intro x _
    exact ((hasDerivAt_id' x).const_add (k : ℝ)).div_const (n : ℝ)
  · intro x _ y _ hxy
    simp only at hxy
    rw [div_left_inj' hnK.ne'] at hxy
    linarith
  · ext y; constructor
    · rintro ⟨x, hx, rfl⟩
      constructor <;> simp only
      · exact div_lt_div_of_pos_right (by linarith [hx.1]) hnK
      · exact div_lt_div_of_pos_right (by linarith [hx.2]) hnK
    · intro hy
      refine ⟨y * n - k, ⟨?_, ?_⟩, ?_⟩
      · have := (div_lt_iff₀ hnK).mp hy.1; linarith
      · have := (lt_div_iff₀ hnK).mp hy.2; linarith
      · simp only; field_simp; ring

/-- Pixel (x, y) of the map. -/
def cell (w h x y : Nat) : Set (ℝ × ℝ) := Ico ((x : ℝ) / w) ((x + 1 : ℝ) / w) ×ˢ Ico ((y : ℝ) / h) ((y + 1 : ℝ) / h)

theorem cell_law (w h x y : Nat) (hw : 0 < w) (hh : 0 < h) (B : Set (ℝ × ℝ)) (hB : MeasurableSet B) :
    uniform2 ((fun q : ℝ × ℝ => (((x : ℝ) + q.1) / w, ((y : ℝ) + q.2) / h)) ⁻¹' B) = ENNReal.ofReal w * ENNReal.ofReal h * volume (B ∩ cell w h x y) := by
  have hm1 : Measurable fun a : ℝ => ((x : ℝ) + a) / w := (measurable_id.const_add _).div_const _
  have hm2 : Measurable fun a : ℝ => ((y : ℝ) + a) / h := (measurable_id.const_add _).div_const _
  have e : uniform2.map (Prod.map (fun a : ℝ => ((x : ℝ) + a) / w) (fun a : ℝ => ((y : ℝ) + a) / h)) = (ENNReal.ofReal w * ENNReal.ofReal h) • volume.restrict (cell w h x y) := by
    rw [uniform2_prod, ← Measure.map_prod_map _ _ hm1 hm2, cov_cell w x hw, cov_cell h y hh, Measure.prod_smul_left, Measure.prod_smul_right, smul_smul, Measure.prod_restrict]
    rfl
  have e2 := congrArg (fun μ : Measure (ℝ × ℝ) => μ B) e
  beta_reduce at e2
  rw [Measure.map_apply (hm1.prodMap hm2) hB, Measure.smul_apply, Measure.restrict_apply hB, smul_eq_mul] at e2
  exact e2

theorem mem_cell {w h x y : Nat} (hw : 0 < w) (hh : 0 < h) {q : ℝ × ℝ} (hq : q ∈ cell w h x y) : ∃ a b : ℝ, 0 ≤ a ∧ a < 1 ∧ 0 ≤ b ∧ b < 1 ∧ q = (((x : ℝ) + a) / w, ((y : ℝ) + b) / h) := by
  have hwK : (0 : ℝ) < w := by exact_mod_cast hw
  have hhK : (0 : ℝ) < h := by exact_mod_cast hh
  obtain ⟨⟨h1, h2⟩, h3, h4⟩ := hq
  rw [div_le_iff₀ hwK] at h1
  rw [lt_div_iff₀ hwK] at h2
  rw [div_le_iff₀ hhK] at h3
  rw [lt_div_iff₀ hhK] at h4
  refine ⟨q.1 * w - x, q.2 * h - y, by linarith, by linarith, by linarith, by linarith, ?_⟩
  ext <;> simp <;> field_simp

theorem cells_cover {w h : Nat} (hw : 0 < w) (hh : 0 < h) : Ico (0 : ℝ) 1 ×ˢ Ico (0 : ℝ) 1 = ⋃ i ∈ Finset.range h ×ˢ Finset.range w, cell w h i.2 i.1 := by
  have hwK : (0 : ℝ) < w := by exact_mod_cast hw
  have hhK : (0 : ℝ) < h := by exact_mod_cast hh
  have key : ∀ (n : Nat), 0 < n → ∀ a : ℝ, 0 ≤ a → a < 1 → ∃ k < n, (k : ℝ) / n ≤ a ∧ a < (k + 1 : ℝ) / n := by
    intro n hn a h0 h1
    have hnK : (0 : ℝ) < n := by exact_mod_cast hn
    refine ⟨⌊a * n⌋₊, ?_, ?_, ?_⟩
    · rw [Nat.floor_lt (by positivity)]; nlinarith
    · rw [div_le_iff₀ hnK]; exact Nat.floor_le (by positivity)
    · rw [lt_div_iff₀ hnK]; exact Nat.lt_floor_add_one _
  have back : ∀ (n k : Nat), 0 < n → k < n → ∀ a : ℝ, (k : ℝ) / n ≤ a → a < (k + 1 : ℝ) / n → 0 ≤ a ∧ a < 1 := by
    intro n k hn hk a h0 h1
    have hnK : (0 : ℝ) < n := by exact_mod_cast hn
    refine ⟨le_trans (by positivity) h0, lt_of_lt_of_le h1 ?_⟩
    rw [div_le_one hnK]
    exact_mod_cast hk
  ext q
  simp only [mem_iUnion, Finset.mem_product, Finset.mem_range, exists_prop]
  constructor
  · rintro ⟨⟨h1, h2⟩, h3, h4⟩
    obtain ⟨x, hx, a1, a2⟩ := key w hw q.1 h1 h2
    obtain ⟨y, hy, b1, b2⟩ := key h hh q.2 h3 h4
    exact ⟨(y, x), ⟨hy, hx⟩, ⟨a1, a2⟩, b1, b2⟩
  · rintro ⟨i, ⟨hy, hx⟩, ⟨a1, a2⟩, b1, b2⟩
    exact ⟨back w i.2 hw hx _ a1 a2, back h i.1 hh hy _ b1 b2⟩

theorem cells_disjoint {w h : Nat} (hw : 0 < w) (hh : 0 < h) (i j : Nat × Nat) (hij : i ≠ j) : Disjoint (cell w h i.2 i.1) (cell w h j.2 j.1) := by
  have key : ∀ (n k l : Nat), 0 < n → ∀ a : ℝ, (k : ℝ) / n ≤ a → a < (k + 1 : ℝ) / n → (l : ℝ) / n ≤ a → a < (l + 1 : ℝ) / n → k = l := by
    intro n k l hn a h1 h2 h3 h4
    have hnK : (0 : ℝ) < n := by exact_mod_cast hn
    rw [div_le_iff₀ hnK] at h1 h3
    rw [lt_div_iff₀ hnK] at h2 h4
    have e1 : (k : ℝ) < l + 1 := by linarith
    have e2 : (l : ℝ) < k + 1 := by linarith
    have e1' : k < l + 1 := by exact_mod_cast e1
    have e2' : l < k + 1 := by exact_mod_cast e2
    omega
  rw [Set.disjoint_left]
  rintro q ⟨⟨a1, a2⟩, b1, b2⟩ ⟨⟨c1, c2⟩, d1, d2⟩
  exact hij (Prod.ext (key h _ _ hh q.2 b1 b2 d1 d2) (key w _ _ hw q.1 a1 a2 c1 c2))

theorem measurable_pdf2 (d : Dist.Dist2 ℝ) : Measurable fun q : ℝ × ℝ => dens (Dist.pdf d q.1 q.2) := by
  have : (fun q : ℝ × ℝ => dens (Dist.pdf d q.1 q.2)) = (fun z : ℤ × ℤ => dens (if min z.2 ((d.h : Int) - 1) < 0 then none else (d.ds[(min z.2 ((d.h : Int) - 1)).toNat]?).map (fun r => Dist.pmf d.m (min z.2 ((d.h : Int) - 1)) * Dist.pmf r z.1 * (d.w : ℝ) * (d.h : ℝ)))) ∘
      fun q : ℝ × ℝ => (⌊q.1 * d.w⌋, ⌊q.2 * d.h⌋) := rfl
  rw [this]
  refine (measurable_of_countable _).comp ?_
  exact (Int.measurable_floor.comp (measurable_fst.mul_const _)).prodMk (Int.measurable_floor.comp (measurable_snd.mul_const _))

/-- C80 (partial). Two-dimensional tables: the sampled point of the unit square has the density `pdf` reports, if the table is built freshly from non-negative weights and no row is zero.
    Missing: tables with zero rows (undefined), or that are initialised again (C29_negation_reinit). -/
theorem C80_dist2_partial (v : List ℝ) (w h : Nat) (hw : 0 < w) (hh : 0 < h) (hv : v.length = w * h) (hnn : ∀ x ∈ v, 0 ≤ x) (hs : ∀ i < h, 0 < (Dist.rowOf v w i).sum) :
    ∃ d, Dist.init Dist.fresh v w h = some d ∧ HasDensityO uniform4 (fun u => Dist.sample2 d u.1.1 u.1.2 u.2.1 u.2.2) uniform2 (fun q => Dist.pdf d q.1 q.2) := by
  obtain ⟨d, hd, hpdf, hsam⟩ := Dist.C29_sample_partial v w h hw hh hv hnn hs
  refine ⟨d, hd, (measurable_pdf2 d).aemeasurable, fun B hB => ?_⟩
  have hsums : ∀ s ∈ Dist.rowSums v w h, 0 ≤ s := by
    intro s hm
    obtain ⟨i, hi, rfl⟩ := List.mem_map.mp hm
    exact (hs i (List.mem_range.mp hi)).le
  have hlen : (Dist.rowSums v w h).length = h := by simp [Dist.rowSums]
  have hsget : ∀ i (hi : i < h), (Dist.rowSums v w h)[i]'(by rw [hlen]; exact hi) = (Dist.rowOf v w i).sum := by
    intro i hi; simp [Dist.rowSums]
  have htot : 0 < (Dist.rowSums v w h).sum := by
    have h0 : (Dist.rowSums v w h)[0]'(by rw [hlen]; exact hh) ≤ (Dist.rowSums v w h).sum := List.single_le_sum hsums _ (List.getElem_mem _)
    rw [hsget 0 hh] at h0
    linarith [hs 0 hh]
  obtain ⟨d', e1, e2, e3, e4, e5, e6⟩ := Dist.init_spec v w h hv (fun i hi => ne_of_gt (hs i hi)) (ne_of_gt htot)
  rw [hd] at e1; cases e1
  have hrnn : ∀ i, ∀ x ∈ Dist.rowOf v w i, 0 ≤ x := fun i x hx => hnn x (List.mem_of_mem_drop (List.mem_of_mem_take hx))
  obtain ⟨cm, m1, m2, I, m3, m4, m5, m6⟩ := sample_interval (Dist.rowSums v w h) hsums htot
  rw [distOf_eq, e5] at m1; cases m1
  rw [hlen] at m3 m4 m5 m6
  have hrow : ∀ y, ∃ c : Dist.Dist ℝ, ∃ J : Nat → Set ℝ, y < h → d.ds[y]? = some c ∧ (∀ i : Int, 0 ≤ Dist.pmf c i) ∧ (∀ i < w, MeasurableSet (J i) ∧ uniform1 (J i) = ENNReal.ofReal (Dist.pmf c i)) ∧
      (∀ i < w, ∀ j < w, i ≠ j → Disjoint (J i) (J j)) ∧ (∀ u, 0 ≤ u → u < 1 → ∀ i < w, Dist.sample c u = some i ↔ u ∈ J i) ∧ ∀ u, 0 ≤ u → u < 1 → ∃ i < w, Dist.sample c u = some i := by
    intro y
    by_cases hy : y < h
    · obtain ⟨c, f1, f2⟩ := e6 y hy
      obtain ⟨c', g1, g2, J, g3, g4, g5, g6⟩ := sample_interval (Dist.rowOf v w y) (hrnn y) (hs y hy)
      rw [distOf_eq, f2] at g1; cases g1
      rw [Dist.rowOf_length v w h y hv hy] at g3 g4 g5 g6
      exact ⟨c, J, fun _ => ⟨f1, g2, g3, g4, g5, g6⟩⟩
    · exact ⟨[], fun _ => ∅, fun h' => absurd h' hy⟩
  choose c J hcJ using hrow
  set f : Nat → Nat → ℝ × ℝ → ℝ × ℝ := fun y x q => (((x : ℝ) + q.1) / w, ((y : ℝ) + q.2) / h) with hf
  have hfm : ∀ y x, Measurable (f y x) := fun y x => ((measurable_fst.const_add _).div_const _).prodMk ((measurable_snd.const_add _).div_const _)
  set R : Nat × Nat → Set ((ℝ × ℝ) × (ℝ × ℝ)) := fun i => (I i.1 ×ˢ J i.1 i.2) ×ˢ (f i.1 i.2 ⁻¹' B) with hR
  have hRm : ∀ i ∈ Finset.range h ×ˢ Finset.range w, MeasurableSet (R i) := by
    intro i hi
    simp only [Finset.mem_product, Finset.mem_range] at hi
    exact ((m3 i.1 hi.1).1.prod (((hcJ i.1 hi.1).2.2.1 i.2 hi.2).1)).prod (hfm _ _ hB)
  have hunit : ∀ᵐ u ∂uniform4, (0 ≤ u.1.1 ∧ u.1.1 < 1) ∧ (0 ≤ u.1.2 ∧ u.1.2 < 1) := by
    have h2 : ∀ᵐ q ∂uniform2, (0 ≤ q.1 ∧ q.1 < 1) ∧ (0 ≤ q.2 ∧ q.2 < 1) := by
      unfold uniform2
      refine (ae_restrict_mem (measurableSet_Ico.prod measurableSet_Ico)).mono fun q hq => ?_
      exact ⟨hq.1, hq.2⟩
    have : Measure.QuasiMeasurePreserving (Prod.fst : (ℝ × ℝ) × (ℝ × ℝ) → ℝ × ℝ) uniform4 uniform2 := Measure.quasiMeasurePreserving_fst
    exact this.ae h2
  have hae : {u : (ℝ × ℝ) × (ℝ × ℝ) | ∃ a, Dist.sample2 d u.1.1 u.1.2 u.2.1 u.2.2 = some a ∧ a ∈ B} =ᵐ[uniform4] ⋃ i ∈ Finset.range h ×ˢ Finset.range w, R i := by
    refine hunit.mono fun u hu => ?_
    obtain ⟨⟨a0, a1⟩, b0, b1⟩ := hu
    obtain ⟨y, hy, s1⟩ := m6 u.1.1 a0 a1
    obtain ⟨f1, _, g3, g4, g5, g6⟩ := hcJ y hy
    obtain ⟨x, hx, s2⟩ := g6 u.1.2 b0 b1
    have hs2 : Dist.sample2 d u.1.1 u.1.2 u.2.1 u.2.2 = some (f y x u.2) := by
      simp only [Dist.sample2, bind, s1, Option.bind_some, f1, s2, e2, e3]; rfl
    rw [eq_iff_iff]
    have hRu : u ∈ ⋃ i ∈ Finset.range h ×ˢ Finset.range w, R i ↔ f y x u.2 ∈ B := by
      constructor
      · intro hm
        obtain ⟨i, hi, hm⟩ := mem_iUnion₂.mp hm
        simp only [Finset.mem_product, Finset.mem_range] at hi
        obtain ⟨⟨h1, h2⟩, h3⟩ := hm
        have t1 := (m5 u.1.1 a0 a1 i.1 hi.1).mpr h1
        rw [s1] at t1
        have hyi := Option.some.inj t1
        obtain ⟨i1, i2⟩ := i
        simp only at hyi hi h2 h3 t1
        subst hyi
        have t2 := (g5 u.1.2 b0 b1 i2 hi.2).mpr h2
        rw [s2] at t2
        have hxi := Option.some.inj t2
        subst hxi
        exact h3
      · intro hm
        refine mem_iUnion₂.mpr ⟨(y, x), by simp [hy, hx], ⟨(m5 _ a0 a1 y hy).mp s1, (g5 _ b0 b1 x hx).mp s2⟩, hm⟩
    refine Iff.trans ?_ hRu.symm
    show (∃ a, Dist.sample2 d u.1.1 u.1.2 u.2.1 u.2.2 = some a ∧ a ∈ B) ↔ _
    rw [hs2]
    constructor
    · rintro ⟨a, h1, h2⟩; cases h1; exact h2
    · intro hm; exact ⟨_, rfl, hm⟩
  have hUm : MeasurableSet (⋃ i ∈ Finset.range h ×ˢ Finset.range w, R i) := Finset.measurableSet_biUnion _ hRm
  refine ⟨hUm.nullMeasurableSet.congr hae.symm, ?_⟩
  rw [measure_congr hae, measure_biUnion_finset ?_ hRm]
  · have hright : ∫⁻ q in B, dens (Dist.pdf d q.1 q.2) ∂uniform2 = ∑ i ∈ Finset.range h ×ˢ Finset.range w, ∫⁻ q in B ∩ cell w h i.2 i.1, dens (Dist.pdf d q.1 q.2) := by
      unfold uniform2
      rw [Measure.restrict_restrict hB, cells_cover hw hh, inter_iUnion₂, lintegral_biUnion_finset]
      · intro i _ j _ hij
        exact (cells_disjoint hw hh i j hij).mono inter_subset_right inter_subset_right
      · intro i _
        exact hB.inter (measurableSet_Ico.prod measurableSet_Ico)
    rw [hright]
    refine Finset.sum_congr rfl fun i hi => ?_
    simp only [Finset.mem_product, Finset.mem_range] at hi
    obtain ⟨f1, g2, g3, _⟩ := hcJ i.1 hi.1
    have hcm : MeasurableSet (B ∩ cell w h i.2 i.1) := hB.inter (measurableSet_Ico.prod measurableSet_Ico)
    have hconst : ∫⁻ q in B ∩ cell w h i.2 i.1, dens (Dist.pdf d q.1 q.2) = ∫⁻ q in B ∩ cell w h i.2 i.1, ENNReal.ofReal (Dist.pmf d.m i.1 * Dist.pmf (c i.1) i.2 * w * h) := by
      refine setLIntegral_congr_fun hcm fun q hq => ?_
      obtain ⟨a, b, a0, a1, b0, b1, rfl⟩ := mem_cell hw hh hq.2
      have hwK : (0 : ℝ) < w := by exact_mod_cast hw
      have hhK : (0 : ℝ) < h := by exact_mod_cast hh
      have fl : ∀ (n k : Nat) (a : ℝ), 0 < (n : ℝ) → 0 ≤ a → a < 1 → ⌊((k : ℝ) + a) / n * n⌋ = (k : Int) := by
        intro n k a hn ha0 ha1
        rw [div_mul_cancel₀ _ (ne_of_gt hn), Int.floor_eq_iff]
        push_cast
        constructor <;> linarith
      have hy1 : min (Dist.toIndex (((i.1 : ℝ) + b) / h * (h : ℝ))) ((h : Int) - 1) = (i.1 : Int) := by
        rw [Dist.toIndex, fl h i.1 b hhK b0 b1]; omega
      have hx1 : Dist.toIndex (((i.2 : ℝ) + a) / w * (w : ℝ)) = (i.2 : Int) := by rw [Dist.toIndex, fl w i.2 a hwK a0 a1]
      have hnn' : ¬ ((i.1 : Int) < 0) := by omega
      simp only [Dist.pdf, e2, e3, hy1, hx1, if_neg hnn', Int.toNat_natCast, f1, Option.map_some]
      rfl
    rw [hconst, setLIntegral_const]
    show uniform4 ((I i.1 ×ˢ J i.1 i.2) ×ˢ (f i.1 i.2 ⁻¹' B)) = _
    unfold uniform4
    rw [Measure.prod_prod]
    conv_lhs => rw [uniform2_prod, Measure.prod_prod]
    rw [← uniform2_prod, (m3 i.1 hi.1).2, (g3 i.2 hi.2).2, cell_law w h i.2 i.1 hw hh B hB, ← mul_assoc, ← mul_assoc]
    congr 1
    rw [← ENNReal.ofReal_mul (m2 _), ← ENNReal.ofReal_mul (mul_nonneg (m2 _) (g2 _)), ← ENNReal.ofReal_mul (by have := mul_nonneg (m2 i.1) (g2 i.2); positivity)]
  · intro i hi j hj hij
    simp only [Finset.coe_product, Finset.coe_range, mem_prod, mem_Iio] at hi hj
    show Disjoint (R i) (R j)
    rw [Set.disjoint_left]
    rintro u ⟨⟨h1, h2⟩, _⟩ ⟨⟨h3, h4⟩, _⟩
    by_cases e : i.1 = j.1
    · have : i.2 ≠ j.2 := fun h' => hij (Prod.ext e h')
      rw [e] at h2
      exact Set.disjoint_left.mp ((hcJ j.1 hj.1).2.2.2.1 i.2 hi.2 j.2 hj.2 this) h2 h4
    · exact Set.disjoint_left.mp (m4 i.1 hi.1 j.1 hj.1 e) h1 h3

end LM.Solid
