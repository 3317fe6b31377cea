import Verif.Props.C80_Glossy
import Mathlib.Algebra.BigOperators.Intervals
/-
  C80: mixtures of materials sample directions with the density they report, unless a mixture is nested in a mixture.
-/
namespace LM.Solid
open MeasureTheory LM Set LM.MathF LM.Surface LM.Material
open scoped ENNReal Real

theorem split3 : MeasurePreserving (fun p : (ℝ × ℝ) × ℝ => (p.1.1, p.1.2, p.2)) (uniform2.prod uniform1) uniform3 := by
  have hm : Measurable fun p : (ℝ × ℝ) × ℝ => (p.1.1, p.1.2, p.2) := measurable_fst.fst.prodMk (measurable_fst.snd.prodMk measurable_snd)
  refine ⟨hm, Measure.ext_of_lintegral _ fun f hf => ?_⟩
  have : SFinite uniform2 := by unfold uniform2; infer_instance
  have : SFinite uniform1 := by unfold uniform1; infer_instance
  rw [lintegral_map hf hm, lintegral_uniform3 hf, lintegral_prod_symm (fun p : (ℝ × ℝ) × ℝ => f (p.1.1, p.1.2, p.2)) (hf.comp hm).aemeasurable]
  unfold uniform1
  rw [restrict_Ioo_eq_restrict_Ico]

theorem third3 : MeasurePreserving (fun u : ℝ × ℝ × ℝ => u.2.2) uniform3 uniform1 := by
  have hm : Measurable fun u : ℝ × ℝ × ℝ => u.2.2 := measurable_snd.snd
  refine ⟨hm, Measure.ext_of_lintegral _ fun f hf => ?_⟩
  rw [lintegral_map hf hm, lintegral_uniform3 (f := fun u => f u.2.2) (hf.comp hm)]
  have h1 : uniform2 univ = 1 := by
    unfold uniform2
    rw [Measure.restrict_apply_univ, show (volume : Measure (ℝ × ℝ)) = volume.prod volume from rfl, Measure.prod_prod]
    simp
  simp only [lintegral_const, h1, mul_one]
  unfold uniform1
  rw [restrict_Ioo_eq_restrict_Ico]

def cube : Set (ℝ × ℝ × ℝ) := Ico 0 1 ×ˢ Ico 0 1 ×ˢ Ico 0 1

theorem cube_ae : ∀ᵐ u ∂uniform3, u ∈ cube := by
  unfold uniform3
  exact ae_restrict_mem (measurableSet_Ico.prod (measurableSet_Ico.prod measurableSet_Ico))

/-- An event decided by a choice among finitely many, made with the third number, and then by the first two numbers. -/
theorem select_law (N : Nat) (I : Nat → Set ℝ) (E : Nat → Set (ℝ × ℝ)) (T : Set (ℝ × ℝ × ℝ)) (hI : ∀ i < N, MeasurableSet (I i)) (hdis : ∀ i < N, ∀ j < N, i ≠ j → Disjoint (I i) (I j))
    (hE : ∀ i < N, NullMeasurableSet (E i) uniform2) (hT : ∀ u ∈ cube, u ∈ T ↔ ∃ i < N, u.2.2 ∈ I i ∧ (u.1, u.2.1) ∈ E i) :
    NullMeasurableSet T uniform3 ∧ uniform3 T = ∑ i ∈ Finset.range N, uniform1 (I i) * uniform2 (E i) := by
  set R : Nat → Set (ℝ × ℝ × ℝ) := fun i => (fun u : ℝ × ℝ × ℝ => u.2.2) ⁻¹' I i ∩ (fun u : ℝ × ℝ × ℝ => (u.1, u.2.1)) ⁻¹' E i with hR
  have hRm : ∀ i < N, NullMeasurableSet (R i) uniform3 := fun i hi =>
    ((third3.measurable (hI i hi)).nullMeasurableSet).inter ((hE i hi).preimage first2.quasiMeasurePreserving)
  have hae : T =ᵐ[uniform3] ⋃ i ∈ Finset.range N, R i := by
    refine cube_ae.mono fun u hu => ?_
    rw [eq_iff_iff]
    refine (hT u hu).trans ?_
    simp only [hR, Finset.mem_range]
    constructor
    · rintro ⟨i, hi, h1, h2⟩; exact mem_iUnion₂.mpr ⟨i, hi, h1, h2⟩
    · intro h; obtain ⟨i, hi, h1, h2⟩ := mem_iUnion₂.mp h; exact ⟨i, hi, h1, h2⟩
  have hU : NullMeasurableSet (⋃ i ∈ Finset.range N, R i) uniform3 := by
    refine NullMeasurableSet.biUnion (Finset.range N).countable_toSet fun i hi => hRm i ?_
    simpa using hi
  refine ⟨hU.congr hae.symm, ?_⟩
  rw [measure_congr hae, measure_biUnion_finset₀]
  · refine Finset.sum_congr rfl fun i hi => ?_
    have hi' : i < N := by simpa using hi
    have : SFinite uniform2 := by unfold uniform2; infer_instance
    have : SFinite uniform1 := by unfold uniform1; infer_instance
    rw [← split3.measure_preimage (hRm i hi')]
    have : (fun p : (ℝ × ℝ) × ℝ => (p.1.1, p.1.2, p.2)) ⁻¹' R i = E i ×ˢ I i := by
      ext p; simp [hR, and_comm]
    rw [this, Measure.prod_prod, mul_comm]
  · intro i hi j hj hij
    refine Disjoint.aedisjoint ?_
    rw [Set.disjoint_left]
    intro u h1 h2
    exact (Set.disjoint_left.mp (hdis i (by simpa using hi) j (by simpa using hj) hij)) h1.1 h2.1
  · intro i hi; exact hRm i (by simpa using hi)

theorem zipIdx_sum {α : Type} (l : List α) (k : Nat) (f : α × Nat → ℝ) : ((l.zipIdx k).map f).sum = ∑ i ∈ Finset.range l.length, (match l[i]? with | some a => f (a, k + i) | none => 0) := by
  induction l generalizing k with
  | nil => simp
  | cons a l ih =>
    rw [List.zipIdx_cons, List.map_cons, List.sum_cons, ih (k + 1), List.length_cons, Finset.sum_range_succ']
    rw [add_comm]
    congr 1
    refine Finset.sum_congr rfl fun i _ => ?_
    rw [List.getElem?_cons_succ, show k + (i + 1) = k + 1 + i by omega]

theorem mapM_eq_map {α β : Type} (l : List α) (f : α → Option β) (g : α → β) (h : ∀ a ∈ l, f a = some (g a)) : l.mapM f = some (l.map g) := by
  induction l with
  | nil => rfl
  | cons a l ih => simp [List.mapM_cons, h a (by simp), ih (fun b hb => h b (by simp [hb]))]

/-- The numbers in [0,1) that select entry i form an interval of length pmf i. -/
theorem sample_interval (ws : List ℝ) (hnn : ∀ w ∈ ws, 0 ≤ w) (hs : 0 < ws.sum) : ∃ c, distOf ws = some c ∧ (∀ i : Int, 0 ≤ Dist.pmf c i) ∧ ∃ I : Nat → Set ℝ,
    (∀ i < ws.length, MeasurableSet (I i) ∧ uniform1 (I i) = ENNReal.ofReal (Dist.pmf c i)) ∧ (∀ i < ws.length, ∀ j < ws.length, i ≠ j → Disjoint (I i) (I j)) ∧
    (∀ u, 0 ≤ u → u < 1 → ∀ i < ws.length, Dist.sample c u = some i ↔ u ∈ I i) ∧ ∀ u, 0 ≤ u → u < 1 → ∃ i < ws.length, Dist.sample c u = some i := by
  obtain ⟨c, h1, h2, h3⟩ := Dist.C28_sample ws hnn hs
  obtain ⟨c', h1', h2', _⟩ := select_ok ws hnn hs
  rw [distOf_eq, h1] at h1'; cases h1'
  have hcum0 : ∀ i, 0 ≤ Dist.cum ws i := fun i => by
    have := Dist.cum_mono ws hnn hs 0 i (Nat.zero_le _)
    simpa [Dist.cum] using this
  have hcum1 : ∀ i ≤ ws.length, Dist.cum ws i ≤ 1 := fun i hi => by
    have := Dist.cum_mono ws hnn hs i ws.length hi
    simpa [Dist.cum, hs.ne'] using this
  refine ⟨c, by rw [distOf_eq]; exact h1, h2', fun i => Ico (Dist.cum ws i) (Dist.cum ws (i + 1)), fun i hi => ⟨measurableSet_Ico, ?_⟩, ?_, ?_, ?_⟩
  · unfold uniform1
    rw [Measure.restrict_apply measurableSet_Ico, ← h2 i hi]
    have : Ico (Dist.cum ws i) (Dist.cum ws (i + 1)) ∩ Ico 0 1 = Ico (Dist.cum ws i) (Dist.cum ws (i + 1)) := by
      rw [inter_eq_left]
      intro x hx
      exact ⟨(hcum0 i).trans hx.1, lt_of_lt_of_le hx.2 (hcum1 _ hi)⟩
    rw [this, Real.volume_Ico]
  · intro i hi j hj hij
    rw [Set.disjoint_left]
    rintro x ⟨a1, a2⟩ ⟨b1, b2⟩
    have hx0 : 0 ≤ x := (hcum0 i).trans a1
    have hx1 : x < 1 := lt_of_lt_of_le a2 (hcum1 _ hi)
    have e1 := ((h3 x hx0 hx1).2 i hi).mpr ⟨a1, a2⟩
    have e2 := ((h3 x hx0 hx1).2 j hj).mpr ⟨b1, b2⟩
    rw [e1] at e2
    exact hij (Option.some.inj e2)
  · intro u hu0 hu1 i hi
    exact (h3 u hu0 hu1).2 i hi
  · intro u hu0 hu1
    obtain ⟨i, hi, e, _⟩ := (h3 u hu0 hu1).1
    exact ⟨i, hi, e⟩

theorem projSA_unit (n : V3 ℝ) : ∀ᵐ d ∂projSolidAngle n, V3.dot d d = 1 := (withDensity_absolutelyContinuous solidAngle _).ae_le solidAngle_unit

/-- C80. A group of the marginalized mixture samples directions with the density it reports, if its materials do and do not themselves use the random number that selects a component. Missing: mixtures of mixtures (C80_negation_nested_mixture). -/
theorem C80_mixture_marginalized_partial (es : List Entry) (g : Geom) (wi : V3 ℝ) (hnn : ∀ e ∈ es, 0 ≤ e.2) (hs : 0 < (es.map (·.2)).sum) (comp : Nat) (grp : List Entry)
    (hg : (groups es)[comp]? = some grp) (hpos : 0 < (grp.map (·.2)).sum) (hgood : ∀ e ∈ grp, EstimatesAt e.1 0 g wi ∧ Defined e.1 0 g wi) (hfree : ∀ e ∈ grp, FreeDensity e.1 0 g wi) :
    MaterialDensity (mixtureMarg es) comp g wi := by
  intro dir
  have hest := (C45_mixture_marginalized es g wi hnn hs).2 comp grp hg hpos hgood
  have hgnn : ∀ e ∈ grp, 0 ≤ e.2 := by
    have hm := List.mem_of_getElem? hg
    rw [C45_groups] at hm
    intro e he
    rcases List.mem_cons.mp hm with rfl | hm
    · exact hnn e (List.mem_of_mem_filter he)
    · obtain ⟨e', he', rfl⟩ := List.mem_map.mp hm
      rw [List.mem_singleton] at he
      subst he
      exact hnn e (List.mem_of_mem_filter he')
  obtain ⟨c, hc, hpm, I, hI, hdis, hsel, hex⟩ := sample_interval (grp.map (·.2)) (by simpa using fun b a hab => hgnn (a, b) hab) hpos
  rw [List.length_map] at hI hdis hsel hex
  -- the reported density
  set P : Entry → V3 ℝ → ℝ≥0∞ := fun e d => dens (e.1.pdfDirection g wi d 0 false) with hP
  have hPm : ∀ e ∈ grp, AEMeasurable (P e) (projSolidAngle g.n) := fun e he => ((hfree e he).2 dir).1
  have hdens : ∀ᵐ d ∂projSolidAngle g.n, dens ((mixtureMarg es).pdfDirection g wi d comp false) = ∑ i ∈ Finset.range grp.length, (match grp[i]? with | some e => ENNReal.ofReal (Dist.pmf c i) * P e d | none => 0) := by
    refine (projSA_unit g.n).mono fun d hd => ?_
    have hval : ∀ e : Entry, ∃ p : ℝ, e ∈ grp → e.1.pdfDirection g wi d 0 false = some p ∧ 0 ≤ p := by
      intro e
      by_cases he : e ∈ grp
      · obtain ⟨p, h1, h2⟩ := ((hgood e he).2 d hd).1
        exact ⟨p, fun _ => ⟨h1, h2⟩⟩
      · exact ⟨0, fun h => absurd h he⟩
    choose q hq using hval
    have hgp : groupPdf grp g wi d false = some (∑ i ∈ Finset.range grp.length, (match grp[i]? with | some e => Dist.pmf c i * q e | none => 0)) := by
      unfold groupPdf
      rw [hc]
      simp only
      rw [mapM_eq_map _ _ (fun e : Entry × Nat => Dist.pmf c e.2 * q e.1) (fun e he => by rw [(hq e.1 (List.fst_mem_of_mem_zipIdx he)).1]; rfl)]
      rw [Option.map_some, zipIdx_sum]
      congr 1
      refine Finset.sum_congr rfl fun i _ => ?_
      rw [Nat.zero_add]
      cases grp[i]? <;> rfl
    simp only [mixtureMarg, hg, Option.bind_some, hgp, dens]
    rw [ENNReal.ofReal_sum_of_nonneg]
    · refine Finset.sum_congr rfl fun i hi => ?_
      cases he : grp[i]? with
      | none => simp
      | some e =>
        have hem := List.mem_of_getElem? he
        simp only [hP]
        rw [(hq e hem).1, ENNReal.ofReal_mul (hpm i)]
        rfl
    · intro i hi
      cases he : grp[i]? with
      | none => simp
      | some e => exact mul_nonneg (hpm i) (hq e (List.mem_of_getElem? he)).2
  have hterm : ∀ i : Nat, AEMeasurable (fun d => match grp[i]? with | some e => ENNReal.ofReal (Dist.pmf c i) * P e d | none => 0) (projSolidAngle g.n) := by
    intro i
    cases he : grp[i]? with
    | none => exact aemeasurable_const
    | some e => exact (hPm e (List.mem_of_getElem? he)).const_mul _
  refine ⟨(Finset.aemeasurable_fun_sum (Finset.range grp.length) fun i _ => hterm i).congr (hdens.mono fun d hd => hd.symm), fun A hA => ?_⟩
  -- the law of the samples
  set E : Nat → Set (ℝ × ℝ) := fun i => match grp[i]? with | some e => event (fun q : ℝ × ℝ => e.1.sampleDirection ⟨q.1, q.2, 0⟩ g wi 0 dir) A | none => ∅ with hE
  have hlaw := select_law grp.length I E (event (fun u : ℝ × ℝ × ℝ => (mixtureMarg es).sampleDirection ⟨u.1, u.2.1, u.2.2⟩ g wi comp dir) A) (fun i hi => (hI i hi).1) hdis ?_ ?_
  · refine ⟨hlaw.1, ?_⟩
    rw [hlaw.2, lintegral_congr_ae (ae_restrict_of_ae hdens), lintegral_finset_sum' _ fun i _ => (hterm i).restrict]
    refine Finset.sum_congr rfl fun i hi => ?_
    have hi' : i < grp.length := by simpa using hi
    have he : grp[i]? = some grp[i] := List.getElem?_eq_getElem hi'
    have hem := List.getElem_mem hi'
    simp only [hE, he]
    rw [(hI i hi').2, (((hfree _ hem).2 dir).2 A hA).2, lintegral_const_mul' _ _ ENNReal.ofReal_ne_top]
  · intro i hi
    have he : grp[i]? = some grp[i] := List.getElem?_eq_getElem hi
    simp only [hE, he]
    exact (((hfree _ (List.getElem_mem hi)).2 dir).2 A hA).1
  · intro u hu
    obtain ⟨⟨a0, a1⟩, ⟨b0, b1⟩, c0, c1⟩ := hu
    obtain ⟨k, hk, hsk⟩ := hex u.2.2 c0 c1
    have hek : grp[k]? = some grp[k] := List.getElem?_eq_getElem hk
    have huniq : ∀ i < grp.length, u.2.2 ∈ I i → i = k := by
      intro i hi hm
      have := (hsel u.2.2 c0 c1 i hi).mpr hm
      rw [hsk] at this
      exact (Option.some.inj this).symm
    have hkI : u.2.2 ∈ I k := (hsel u.2.2 c0 c1 k hk).mp hsk
    have hv : (⟨u.1, u.2.1, u.2.2⟩ : DirU).Valid := ⟨⟨a0, a1⟩, ⟨b0, b1⟩, c0, c1⟩
    have hEk : E k = event (fun q : ℝ × ℝ => grp[k].1.sampleDirection ⟨q.1, q.2, 0⟩ g wi 0 dir) A := by simp only [hE, hek]
    have hiff : (∃ i < grp.length, u.2.2 ∈ I i ∧ (u.1, u.2.1) ∈ E i) ↔ (u.1, u.2.1) ∈ E k := by
      constructor
      · rintro ⟨i, hi, h1, h2⟩; rw [huniq i hi h1] at h2; exact h2
      · intro h; exact ⟨k, hk, hkI, h⟩
    rw [hiff, hEk]
    have hfk := (hfree _ (List.getElem_mem hk)).1 ⟨u.1, u.2.1, u.2.2⟩ 0 dir
    have hest' := hest ⟨u.1, u.2.1, u.2.2⟩ dir hv
    simp only [event, mem_ofPred_eq]
    simp only [mixtureMarg, hg, hc, Option.bind_some, hsk, hek] at hest' ⊢
    rw [hfk] at hest' ⊢
    simp only
    cases hr : grp[k].1.sampleDirection ⟨u.1, u.2.1, 0⟩ g wi 0 dir with
    | fail => simp
    | undef => simp
    | ok wo C =>
      rw [hr] at hest'
      simp only at hest' ⊢
      cases hw : weightOf wo (groupEval grp g wi wo dir false) (groupPdf grp g wi wo false) with
      | fail => 
        exfalso
        unfold weightOf at hw
        split at hw
        · split at hw <;> cases hw
        · cases hw
      | undef => rw [hw] at hest'; exact absurd hest' id
      | ok wo' C' =>
        have hwo : wo' = wo := by
          unfold weightOf at hw
          split at hw
          · split at hw
            · exact (DirRes.ok.inj hw).1.symm
            · cases hw
          · cases hw
        constructor
        · rintro ⟨w, C1, he, hA'⟩; obtain ⟨rfl, rfl⟩ := DirRes.ok.inj he; exact ⟨_, _, rfl, hwo ▸ hA'⟩
        · rintro ⟨w, C1, he, hA'⟩; obtain ⟨rfl, rfl⟩ := DirRes.ok.inj he; exact ⟨_, _, rfl, hwo ▸ hA'⟩

/-- C80. A component of the mixture with Russian roulette samples directions with the density it reports, if its material does. -/
theorem C80_mixture_rr (es : List Entry) (g : Geom) (wi : V3 ℝ) (comp : Nat) (e : Entry) (he : es[comp]? = some e) (h : MaterialDensity e.1 0 g wi) : MaterialDensity (mixtureRR es) comp g wi := by
  intro dir
  have e1 : ∀ A, event (fun u : ℝ × ℝ × ℝ => (mixtureRR es).sampleDirection ⟨u.1, u.2.1, u.2.2⟩ g wi comp dir) A = event (fun u : ℝ × ℝ × ℝ => e.1.sampleDirection ⟨u.1, u.2.1, u.2.2⟩ g wi 0 dir) A := by
    intro A
    ext u
    simp only [event, mixtureRR, he, mem_ofPred_eq]
    cases e.1.sampleDirection ⟨u.1, u.2.1, u.2.2⟩ g wi 0 dir with
    | fail => simp
    | undef => simp
    | ok wo C =>
      simp only
      constructor
      · rintro ⟨w, C1, he, hA'⟩; obtain ⟨rfl, rfl⟩ := DirRes.ok.inj he; exact ⟨_, _, rfl, hA'⟩
      · rintro ⟨w, C1, he, hA'⟩; obtain ⟨rfl, rfl⟩ := DirRes.ok.inj he; exact ⟨_, _, rfl, hA'⟩
  have e2 : (fun d => (mixtureRR es).pdfDirection g wi d comp false) = fun d => e.1.pdfDirection g wi d 0 false := by
    ext1 d; simp only [mixtureRR, he, Option.bind_some]
  rw [e2]
  exact ⟨(h dir).1, fun A hA => by rw [e1]; exact (h dir).2 A hA⟩

end LM.Solid
