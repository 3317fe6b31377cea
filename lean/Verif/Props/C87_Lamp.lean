import Verif.Props.C86_Light
import Verif.Props.C87_Walk
/-
  C87: the law of the light subpath.
-/
namespace LM.Transport
open MeasureTheory LM LM.Surface LM.Material LM.Light LM.MathF LM.Path LM.Render LM.Solid LM.Chain Set
open scoped ENNReal

/-- What holds almost everywhere holds for almost all samples. -/
theorem sampleO_null {U α : Type} [MeasurableSpace U] [MeasurableSpace α] {μ : Measure U} {s : U → Option α} {σ : Measure α} {p : α → Option ℝ} (h : HasDensityO μ s σ p) {P : α → Prop} (hP : ∀ᵐ a ∂σ, P a) : ∀ᵐ u ∂μ, ∀ a, s u = some a → P a := by
  set N := toMeasurable σ {a | ¬ P a} with hN
  have hN0 : σ N = 0 := by rw [hN, measure_toMeasurable]; exact ae_iff.mp hP
  have h1 := (h.2 N (measurableSet_toMeasurable _ _)).2
  rw [setLIntegral_measure_zero _ _ hN0] at h1
  rw [ae_iff]
  refine measure_mono_null (fun u hu => ?_) h1
  simp only [Set.mem_ofPred_eq, not_forall] at hu
  obtain ⟨a, e, hc⟩ := hu
  exact ⟨a, e, subset_toMeasurable _ _ hc⟩

instance singleton_v3 : MeasurableSingletonClass (V3 ℝ) := ⟨fun a => by
  have e : {a} = {p : V3 ℝ | p.x = a.x} ∩ ({p : V3 ℝ | p.y = a.y} ∩ {p : V3 ℝ | p.z = a.z}) := by
    ext p
    simp only [Set.mem_singleton_iff, Set.mem_inter_iff, Set.mem_ofPred_eq, V3.ext_iff]
  rw [e]
  exact (measurable_x (measurableSet_singleton _)).inter ((measurable_y (measurableSet_singleton _)).inter (measurable_z (measurableSet_singleton _)))⟩

theorem embedding_right (n : V3 ℝ) : MeasurableEmbedding fun x : V3 ℝ => (x, n) := MeasurableEquiv.prodComm.measurableEmbedding.comp (measurableEmbedding_prodMk_left n)

theorem ae_of_surf {Fs : List (Int × Tri)} {P : Spot → Prop} (h : ∀ᵐ y ∂surf Fs, P y) : ∀ g ∈ Fs, ∀ᵐ p ∂triMeasure g.2, P (g.1, p) := by
  intro g hg
  rw [ae_iff] at h
  unfold surf at h
  rw [map_sum_apply] at h
  have h1 : (Measure.map (Prod.mk g.1) (triMeasure g.2)) {a | ¬ P a} = 0 := by
    have h2 := List.single_le_sum (l := Fs.map fun f => (Measure.map (Prod.mk f.1) (triMeasure f.2)) {a | ¬ P a}) (fun _ _ => zero_le) _ (List.mem_map.mpr ⟨g, hg, rfl⟩)
    rw [h] at h2
    exact le_antisymm h2 zero_le
  exact ((measurableEmbedding_prodMk_left g.1).ae_map_iff).mp (ae_iff.mpr h1)

/-- Almost all cosine weighted directions are on the front. -/
theorem cosine_front {u v n : V3 ℝ} (h : Frame u v n) {P : V3 ℝ → Prop} (hP : ∀ᵐ d ∂solidAngle, P d) : ∀ᵐ q ∂uniform2, P (lin u v n (sampleCosineWeighted q.1 q.2)) ∧ 0 < V3.dot (lin u v n (sampleCosineWeighted q.1 q.2)) n := by
  refine (cosine_null h hP).and ?_
  have hm : MeasurableSet {d : V3 ℝ | V3.dot d n ≤ 0} := measurableSet_le (measurable_dotc n) measurable_const
  have hi : Measurable ({d : V3 ℝ | V3.dot d n ≤ 0}.indicator (fun _ => (1 : ℝ≥0∞))) := measurable_const.indicator hm
  have h1 := law_cosine h hi
  have h2 : ∫⁻ d, ENNReal.ofReal (V3.dot d n / Real.pi) * {d : V3 ℝ | V3.dot d n ≤ 0}.indicator (fun _ => (1 : ℝ≥0∞)) d ∂solidAngle = 0 := by
    rw [lintegral_congr fun d => ?_, lintegral_zero]
    by_cases hd : V3.dot d n ≤ 0
    · rw [ENNReal.ofReal_of_nonpos (div_nonpos_of_nonpos_of_nonneg hd Real.pi_pos.le), zero_mul]
    · rw [indicator_of_notMem (show d ∉ {d : V3 ℝ | V3.dot d n ≤ 0} from hd), mul_zero]
  rw [h2] at h1
  have hs : ∀ᵐ q ∂uniform2, {d : V3 ℝ | V3.dot d n ≤ 0}.indicator (fun _ => (1 : ℝ≥0∞)) (lin u v n (sampleCosineWeighted q.1 q.2)) = 0 := by
    refine (lintegral_eq_zero_iff' ?_).mp h1
    exact (hi.comp ((measurable_lin u v n).comp measurable_cosine)).aemeasurable
  refine hs.mono fun q hq => ?_
  by_contra c
  rw [indicator_of_mem (show _ ∈ {d : V3 ℝ | V3.dot d n ≤ 0} from not_lt.mp c)] at hq
  exact one_ne_zero hq

/-- Averaged over the selection of a light, the rays are the mean over the lights of their rays. -/
theorem rays_pick {W : World} {node M Lt} (h : LightTable W node M Lt) (X : SRes → ℝ≥0∞) :
    averageLight (fun u => X (samplePrimaryRay W u .LE)) =
      ∑ j ∈ Finset.range W.st.lights.length, ENNReal.ofReal (1 / W.st.lights.length) * ∫⁻ p, ∫⁻ q, X (wrap .light (node j) (W.st.lights.length : ℝ) ((Lt j).sampleRay ⟨p.1, p.2.1, p.2.2, q.1, q.2⟩ (M j))) ∂uniform2 ∂uniform3 := by
  have hnR : (0 : ℝ) < W.st.lights.length := by exact_mod_cast h.pos
  set n := W.st.lights.length with hn
  set G : ℕ → ℝ × ℝ × ℝ → ℝ × ℝ → ℝ≥0∞ := fun j p q => X (wrap .light (node j) (n : ℝ) ((Lt j).sampleRay ⟨p.1, p.2.1, p.2.2, q.1, q.2⟩ (M j))) with hG
  set sel : ℝ → Option (ℕ × ℝ) := fun u => some ((Scene.sampleLightSelection n u).1.toNat, (n : ℝ)) with hsel
  have hw : ∀ u, 0 ≤ u → u < 1 → ∀ (p : ℝ × ℝ × ℝ) (q : ℝ × ℝ), X (samplePrimaryRay W ⟨p.1, p.2.1, u, p.2.2, q.1, q.2⟩ .LE) = G ((Scene.sampleLightSelection n u).1.toNat) p q := by
    intro u h0 h1 p q
    obtain ⟨j, hj, _, e⟩ := h.select u h0 h1
    rw [← hn] at e hj
    simp only [samplePrimaryRay, sampleFromLight, ← hn, e, h.entry j hj, h.light j hj, if_true, RaySampleU.toLight, Int.toNat_natCast, one_div, inv_inv, hG]
  have hone : ENNReal.ofReal n * ENNReal.ofReal (1 / n) = 1 := by rw [← ENNReal.ofReal_mul hnR.le, mul_one_div_cancel hnR.ne', ENNReal.ofReal_one]
  have e1 : averageLight (fun u => X (samplePrimaryRay W u .LE)) = ∫⁻ u, compWorth (fun j => ENNReal.ofReal (1 / n) * ∫⁻ p, ∫⁻ q, G j p q ∂uniform2 ∂uniform3) (sel u) ∂uniform1 := by
    unfold averageLight
    refine lintegral_congr_ae (uniform1_ae.mono fun u hu => ?_)
    dsimp only
    simp_rw [hw u hu.1 hu.2]
    simp only [hsel, compWorth]
    rw [← mul_assoc, hone, one_mul]
  rw [e1, select_expect (N := n) (I := fun j => Set.Ico ((j : ℝ) / n) ((j + 1) / n)) (p := fun _ => 1 / (n : ℝ))]
  · rw [Finset.filter_true_of_mem]
    intro j _
    exact (one_div_pos.mpr hnR).ne'
  · intro j hj
    refine ⟨measurableSet_Ico, ?_⟩
    rw [uniform1_Ico (by positivity)]
    · congr 1; field_simp; ring
    · rw [div_le_one hnR]; exact_mod_cast hj
  · intro a ha b hb hab
    refine Set.disjoint_left.mpr fun x hx hy => hab ?_
    have h1 := (div_le_iff₀ hnR).mp hx.1
    have h2 := (lt_div_iff₀ hnR).mp hx.2
    have h3 := (div_le_iff₀ hnR).mp hy.1
    have h4 := (lt_div_iff₀ hnR).mp hy.2
    have h5 : (a : ℝ) < b + 1 := by linarith
    have h6 : (b : ℝ) < a + 1 := by linarith
    have h5 : a < b + 1 := by exact_mod_cast h5
    have h6 : b < a + 1 := by exact_mod_cast h6
    omega
  · intro _ _; positivity
  · intro u h0 h1
    obtain ⟨j, hj, hm, e⟩ := h.select u h0 h1
    rw [← hn] at e hm hj
    exact ⟨j, hj, hm, by simp [hsel, e]⟩

namespace Site
variable {S : Site} {W : World} {n : Int} {cam : Camera} {mat : Int → Mat} {O : ℝ≥0∞}
variable {node : ℕ → Int} {M : ℕ → Aff ℝ} {sgn : V3 ℝ → Bool} {junk : V3 ℝ} {Ke : ℕ → V3 ℝ} {ts : ℕ → List Tri}

/-- The lights of the site are those of the scene. -/
structure Lamped (S : Site) (W : World) (node : ℕ → Int) (M : ℕ → Aff ℝ) (sgn : V3 ℝ → Bool) (junk : V3 ℝ) (Ke : ℕ → V3 ℝ) (ts : ℕ → List Tri) : Prop where
  lamps : Lamps W S.Fs S.vertex node M sgn junk Ke ts
  pA : ∀ l < W.st.lights.length, ∀ p, transformedInvA (ts l) (M l) = some p → S.pA (node l) = 1 / W.st.lights.length * p
  none : ∀ j, W.lightAt j = none → S.pA j = 0
  PL : ∀ l < W.st.lights.length, ∀ p d, S.PL (node l) p d = if V3.dot d (S.vertex (node l) p).geom.n ≤ 0 then 0 else pdfCosine

theorem Sound.m_mean (h : S.Sound) {α : Type} [MeasurableSpace α] {T : α → Node → ℝ≥0∞} (hT : Measurable fun q : α × Node => T q.1 q.2) {o d : α → V3 ℝ} (ho : Measurable o) (hd : Measurable d) : Measurable fun a => S.mean (T a) (o a) (d a) := by
  have hterm : Measurable fun q : Node × α => ENNReal.ofReal (S.pc q.1.1.1 q.1.2 q.1.1.2 (-(d q.2))) * T q.2 q.1 := by
    have : Measurable fun q : Node × α => (q.1, -(d q.2)) := measurable_fst.prodMk (measurable_neg3.comp (hd.comp measurable_snd))
    exact (h.m_pc.comp this).ennreal_ofReal.mul (hT.comp measurable_swap)
  have hF : Measurable fun q : Spot × α => ∑ c ∈ S.C q.1.1, ENNReal.ofReal (S.pc q.1.1 c q.1.2 (-(d q.2))) * T q.2 (q.1, c) := by
    refine measurable_of_spot (F := fun q : Spot × α => ∑ c ∈ S.C q.1.1, ENNReal.ofReal (S.pc q.1.1 c q.1.2 (-(d q.2))) * T q.2 (q.1, c)) fun j => ?_
    refine Finset.measurable_fun_sum (S.C j) fun c _ => ?_
    have e : Measurable fun q : V3 ℝ × α => ((((j, q.1), c), q.2) : Node × α) := ((measurable_const.prodMk measurable_fst).prodMk measurable_const).prodMk measurable_snd
    exact hterm.comp e
  exact h.faceted.measurable_hit (o := o) (d := d) (F := fun a y => ∑ c ∈ S.C y.1, ENNReal.ofReal (S.pc y.1 c y.2 (-(d a))) * T a (y, c)) ho hd (hF.comp measurable_swap)

/-- The directions from a point of a light, by area. -/
theorem Works.lampMean (h : S.Sound) (R : S.Works W n cam mat) (B : S.Lamped W node M sgn junk Ke ts) {l : ℕ} (hl : l < W.st.lights.length) {p : V3 ℝ} {T : Node → ℝ≥0∞} (hTz : Measurable T) :
    ∫⁻ d, ENNReal.ofReal (V3.dot d (S.nrm (node l, p)) / Real.pi) * S.mean T p d ∂solidAngle = ∫⁻ y, S.lampK (node l, p) y * T y ∂S.area := by
  classical
  have hAm : Measurable fun d => ENNReal.ofReal (V3.dot d (S.nrm (node l, p)) / Real.pi) := ((measurable_dotc _).div_const _).ennreal_ofReal
  rw [(h.mean_area hTz hAm p).2]
  refine lintegral_congr_ae (area_fit.mono fun y hy => ?_)
  beta_reduce
  congr 1
  unfold lampK
  dsimp only
  by_cases hsee : Sees S.Q p y.1.1 y.1.2
  · rw [if_pos hsee, if_pos hsee]
    unfold lampR
    dsimp only
    by_cases he : y.1.2 = p
    · have : S.facing p y.1 = 0 := by unfold facing; rw [he]; simp [V3.dot]
      rw [this]; simp
    · have hun : V3.dot (dirOf (y.1.2 - p)) (dirOf (y.1.2 - p)) = 1 := unit_to (Ne.symm he)
      obtain ⟨-, hjy, -, -, -, hneg, hngy⟩ := R.meet h hun (y := y.1) hsee
      have hpp : 0 ≤ S.pickR p y := by
        unfold pickR
        rw [dirOf_swap p y.1.2]
        exact (R.component y.1.1 hjy y.2 hy.2 y.1.2 _ hneg hngy).2.le
      have h0 : 0 ≤ S.facing p y.1 := div_nonneg (abs_nonneg _) (dot_self_nonneg _)
      rw [ENNReal.ofReal_mul' hpp, ENNReal.ofReal_mul' h0, B.PL l hl, show (S.vertex (node l) p).geom.n = S.nrm (node l, p) from rfl]
      congr 2
      unfold cosAt
      dsimp only
      rw [V3.dot_comm (S.nrm (node l, p))]
      by_cases hd : V3.dot (dirOf (y.1.2 - p)) (S.nrm (node l, p)) ≤ 0
      · rw [if_pos hd, zero_mul, ENNReal.ofReal_of_nonpos (div_nonpos_of_nonpos_of_nonneg hd Real.pi_pos.le), ENNReal.ofReal_zero]
      · rw [if_neg hd, abs_of_pos (not_le.mp hd)]
        congr 1
        unfold pdfCosine
        ring
  · rw [if_neg hsee, if_neg hsee]

/-- The second vertex of the light subpath, from a point of a light. -/
theorem Works.lightPoint (h : S.Sound) (R : S.Works W n cam mat) (B : S.Lamped W node M sgn junk Ke ts) {G : Spot → Prop} (hG : ∀ᵐ x ∂surf S.Fs, G x) {l : ℕ} (hl : l < W.st.lights.length) (hj : node l ∈ S.Fs.map (·.1)) (hpA0 : 0 < S.pA (node l)) {K : Vert → ℝ≥0∞} {V : Vert → Vert → ℝ≥0∞} {K' : Spot → ℝ≥0∞} {T : Spot → Node → ℝ≥0∞}
    {g : Geom} (hTz : Measurable (T (node l, g.p))) (hlit : S.Lit ⟨⟨.light, node l, g⟩, 0⟩ (node l, g.p)) (hnn : g.n = S.nrm (node l, g.p)) (hn1 : V3.dot g.n g.n = 1) (hGz : G (node l, g.p))
    (hK : ∀ zv z, S.Lit zv z → z.1 ∈ S.Fs.map (·.1) → 0 < S.pA z.1 → G z → K zv = K' z)
    (hV : ∀ zv z y, S.Lit zv z → z.1 ∈ S.Fs.map (·.1) → 0 < S.pA z.1 → G z → S.lampK z y ≠ 0 → S.Fit y → G y.1 → V zv (S.toVert y) = K' z + T z y) (a b c : ℝ) :
    ∫⁻ q : ℝ × ℝ, ∫⁻ u, Site.arrive O W S.Q (K ⟨⟨.light, node l, g⟩, 0⟩) (V ⟨⟨.light, node l, g⟩, 0⟩) g.p (cosineAround sgn g ⟨a, b, c, q.1, q.2⟩) u ∂uniform1 ∂uniform2 =
      K' (node l, g.p) + ∫⁻ d, ENNReal.ofReal (V3.dot d g.n / Real.pi) * S.mean (T (node l, g.p)) g.p d ∂solidAngle := by
  classical
  have hFr := frame_of (C32_basis g.n (sgn g.n) hn1)
  have hgood : ∀ᵐ d ∂solidAngle, V3.dot d d = 1 ∧ ∀ x, hitOf S.Q g.p d = some x → G x := solidAngle_unit.and (h.ae_hit hG g.p)
  have hmz : Measurable fun d => S.mean (T (node l, g.p)) g.p d := h.m_mean (T := fun _ : V3 ℝ => T (node l, g.p)) (hTz.comp measurable_snd) measurable_const measurable_id
  rw [← law_cosine hFr hmz]
  have hadd : ∀ f : ℝ × ℝ → ℝ≥0∞, K' (node l, g.p) + ∫⁻ q, f q ∂uniform2 = ∫⁻ q, K' (node l, g.p) + f q ∂uniform2 := fun f => by rw [lintegral_add_left measurable_const, int2_const]
  rw [hadd]
  refine lintegral_congr_ae ((cosine_front hFr hgood).mono fun q hq => ?_)
  obtain ⟨⟨hun, hgy⟩, hfr⟩ := hq
  beta_reduce
  rw [hK _ _ hlit hj hpA0 hGz]
  refine R.arrive h hun fun y hy c hc => ?_
  obtain ⟨-, hjy, hdr, hsee, hop, hneg, hngy⟩ := R.meet h hun hy
  refine hV _ (node l, g.p) (y, c) hlit hj hpA0 hGz ?_ ⟨hjy, hc⟩ (hgy y hy)
  unfold lampK
  rw [if_pos hsee]
  refine (ENNReal.ofReal_pos.mpr ?_).ne'
  unfold lampR pickR
  dsimp only
  have hpp : 0 < S.pc y.1 c y.2 (dirOf (g.p - y.2)) := by
    rw [dirOf_swap g.p y.2, ← hdr]
    exact (R.component y.1 hjy c hc y.2 _ hneg hngy).2
  have hcz : 0 < S.cosAt (node l, g.p) y.2 := by
    unfold cosAt
    dsimp only
    rw [← hdr, ← hnn, V3.dot_comm]
    exact abs_pos.mpr hfr.ne'
  have hPL : 0 < S.PL (node l) g.p (dirOf (y.2 - g.p)) := by
    rw [B.PL l hl, ← hdr, show (S.vertex (node l) g.p).geom.n = g.n from hnn.symm, if_neg (not_le.mpr hfr)]
    exact pdfCosine_pos
  exact mul_pos (mul_pos (mul_pos hPL hcz) (facing_pos hop)) hpp

/-- The first ray of the light subpath. -/
theorem Works.firstLight (h : S.Sound) (R : S.Works W n cam mat) (B : S.Lamped W node M sgn junk Ke ts) {G : Spot → Prop} (hG : ∀ᵐ x ∂surf S.Fs, G x) {K₀ : ℝ≥0∞} {K : Vert → ℝ≥0∞} {V : Vert → Vert → ℝ≥0∞} {K' : Spot → ℝ≥0∞} {T : Spot → Node → ℝ≥0∞} (hK' : Measurable K') (hT : Measurable fun q : Spot × Node => T q.1 q.2)
    (hK : ∀ zv z, S.Lit zv z → z.1 ∈ S.Fs.map (·.1) → 0 < S.pA z.1 → G z → K zv = K' z)
    (hV : ∀ zv z y, S.Lit zv z → z.1 ∈ S.Fs.map (·.1) → 0 < S.pA z.1 → G z → S.lampK z y ≠ 0 → S.Fit y → G y.1 → V zv (S.toVert y) = K' z + T z y) :
    averageStep (fun r => leave O W S.Q K₀ K V r.comp (samplePrimaryRay W r.light .LE)) = ∫⁻ z, ENNReal.ofReal (S.pA z.1) * (K' z + ∫⁻ y, S.lampK z y * T z y ∂S.area) ∂surf S.Fs := by
  classical
  have hnR : (0 : ℝ) < W.st.lights.length := by exact_mod_cast B.lamps.table.pos
  have hlm : Measurable fun q : Spot × Node => S.lampK q.1 q.2 := h.m_lampK measurable_fst measurable_snd
  have hIm : Measurable fun z => K' z + ∫⁻ y, S.lampK z y * T z y ∂S.area := hK'.add (hlm.mul hT).lintegral_prod_right'
  have hpm : Measurable fun z : Spot => ENNReal.ofReal (S.pA z.1) := m_pA.ennreal_ofReal
  have hav : averageStep (fun r => leave O W S.Q K₀ K V r.comp (samplePrimaryRay W r.light .LE)) = averageLight (fun u => ∫⁻ b, leave O W S.Q K₀ K V b (samplePrimaryRay W u .LE) ∂uniform1) := by
    unfold averageStep
    simp only [int1_const, int3_const]
  rw [hav, rays_pick B.lamps.table fun s => ∫⁻ b, leave O W S.Q K₀ K V b s ∂uniform1, lintegral_surf', sum_by_node S.Fs _ W.st.lights.length node]
  · refine Finset.sum_congr rfl fun l hl => ?_
    have hl := Finset.mem_range.mp hl
    obtain ⟨hA, hM, hS⟩ := B.lamps.size l hl
    obtain ⟨pA, hp, hp0, hpe⟩ := transformedInvA_pos (ts l) (M l) hA hM
    have hpA := B.pA l hl pA hp
    have hpA0 : 0 < S.pA (node l) := by rw [hpA]; positivity
    have hz : (0 : ℝ) ≤ 0 ∧ (0 : ℝ) < 1 := ⟨le_rfl, one_pos⟩
    have hface : ∀ t ∈ ts l, (node l, triMap (M l) t) ∈ S.Fs := fun t ht => by
      have : (node l, triMap (M l) t) ∈ S.Fs.filter (·.1 = node l) := by rw [B.lamps.faces l hl]; exact List.mem_map.mpr ⟨t, ht, rfl⟩
      exact (List.mem_filter.mp this).1
    -- what is left after the point is sampled
    set Ξ : V3 ℝ × V3 ℝ → ℝ≥0∞ := fun a => K' (node l, a.1) + ∫⁻ d, ENNReal.ofReal (V3.dot d a.2 / Real.pi) * S.mean (T (node l, a.1)) a.1 d ∂solidAngle with hΞ
    have hsp : Measurable fun a : V3 ℝ × V3 ℝ => ((node l, a.1) : Spot) := measurable_const.prodMk measurable_fst
    have hmean : Measurable fun q : (V3 ℝ × V3 ℝ) × V3 ℝ => S.mean (T (node l, q.1.1)) q.1.1 q.2 := by
      have : Measurable fun q : ((V3 ℝ × V3 ℝ) × V3 ℝ) × Node => T (node l, q.1.1.1) q.2 := by
        have e : Measurable fun q : ((V3 ℝ × V3 ℝ) × V3 ℝ) × Node => (((node l, q.1.1.1) : Spot), q.2) := (hsp.comp (measurable_fst.comp measurable_fst)).prodMk measurable_snd
        exact hT.comp e
      exact h.m_mean (T := fun q : (V3 ℝ × V3 ℝ) × V3 ℝ => T (node l, q.1.1)) this (measurable_fst.comp measurable_fst) measurable_snd
    have hΞm : Measurable Ξ := by
      have hc : Measurable fun q : (V3 ℝ × V3 ℝ) × V3 ℝ => ENNReal.ofReal (V3.dot q.2 q.1.2 / Real.pi) := ((measurable_dot3 measurable_snd (measurable_snd.comp measurable_fst)).div_const _).ennreal_ofReal
      exact (hK'.comp hsp).add (hc.mul hmean).lintegral_prod_right'
    have hden := emission_point sgn junk (ts l) (M l) hA hM hS hp0 hpe 0 0
    have hGt : ∀ᵐ a ∂((ts l).map fun t => (triMeasure (triMap (M l) t)).map fun x => (x, frontNormal (M l) t)).sum, G (node l, a.1) := by
      refine ae_map_sum _ _ _ fun t ht => ?_
      have hs := ae_of_surf hG (node l, triMap (M l) t) (hface t ht)
      exact ((embedding_right (frontNormal (M l) t)).ae_map_iff).mpr hs
    have key : ∀ᵐ p ∂uniform3, ∫⁻ q, ∫⁻ b, leave O W S.Q K₀ K V b (wrap .light (node l) (W.st.lights.length : ℝ) ((Light.area sgn junk (Ke l) (ts l)).sampleRay ⟨p.1, p.2.1, p.2.2, q.1, q.2⟩ (M l))) ∂uniform1 ∂uniform2 =
        (match (sampleOnMesh sgn junk (ts l) ⟨p.1, p.2.1, p.2.2, 0, 0⟩ (M l)).map fun g => (g.p, g.n) with | some a => Ξ a | none => 0) := by
      filter_upwards [area_inside sgn junk (ts l) (M l) hA hM 0 0 hz hz, cube_ae, sampleO_null hden hGt] with p hu hc hg
      obtain ⟨g, t, e, ht, hin, hn, hinf, hdeg⟩ := hu
      have hval : (⟨p.1, p.2.1, p.2.2, 0, 0⟩ : RayU).Valid := ⟨hc.1, hc.2.1, hc.2.2, hz, hz⟩
      obtain ⟨g', t', e', _, _, _, _, hon, _⟩ := sampleOnMesh_spec sgn junk (ts l) ⟨p.1, p.2.1, p.2.2, 0, 0⟩ (M l) hval hA hM
      rw [e] at e'; cases e'
      have hGz : G (node l, g.p) := hg (g.p, g.n) (by rw [e]; rfl)
      have hj : node l ∈ S.Fs.map (·.1) := List.mem_map.mpr ⟨_, hface t ht, rfl⟩
      have hnn : g.n = S.nrm (node l, g.p) := by rw [hn]; exact (B.lamps.flat l hl t ht g.p hin).symm
      have hlit : S.Lit ⟨⟨.light, node l, g⟩, 0⟩ (node l, g.p) := ⟨rfl, rfl, rfl, hnn, hinf, hdeg⟩
      have hpp : 0 < pA * pdfCosine := mul_pos hp0 pdfCosine_pos
      have e2 : ∀ q : ℝ × ℝ, wrap .light (node l) (W.st.lights.length : ℝ) ((Light.area sgn junk (Ke l) (ts l)).sampleRay ⟨p.1, p.2.1, p.2.2, q.1, q.2⟩ (M l)) =
          .ok ⟨.light, node l, g⟩ (cosineAround sgn g ⟨p.1, p.2.1, p.2.2, q.1, q.2⟩) ((W.st.lights.length : ℝ) • (1 / (pA * pdfCosine)) • areaEval (Ke l) g (cosineAround sgn g ⟨p.1, p.2.1, p.2.2, q.1, q.2⟩)) := fun q => by
        have e3 : sampleOnMesh sgn junk (ts l) ⟨p.1, p.2.1, p.2.2, q.1, q.2⟩ (M l) = some g := e
        simp only [Light.area, e3, hp, Option.map_some, ray, divV, hpp.ne', if_false, wrap]
      simp_rw [e2]
      simp only [leave]
      rw [e]
      simp only [Option.map_some, hΞ]
      exact R.lightPoint h B hG hl hj hpA0 (hT.comp measurable_prodMk_left) hlit hnn hon.2.2.1 hGz hK hV _ _ _
    rw [lintegral_congr_ae key]
    have hlaw := lintegral_sample hden Ξ hΞm.aemeasurable (fun p => match (sampleOnMesh sgn junk (ts l) ⟨p.1, p.2.1, p.2.2, 0, 0⟩ (M l)).map fun g => (g.p, g.n) with | some a => Ξ a | none => 0) (Filter.Eventually.of_forall fun u => by
      beta_reduce
      generalize (sampleOnMesh sgn junk (ts l) ⟨u.1, u.2.1, u.2.2, 0, 0⟩ (M l)).map (fun g => (g.p, g.n)) = o
      cases o <;> rfl)
    rw [hlaw, B.lamps.faces l hl, List.map_map, lintegral_map_sum, ← List.sum_map_mul_left]
    refine congrArg List.sum (List.map_congr_left fun t ht => ?_)
    have hj : node l ∈ S.Fs.map (·.1) := List.mem_map.mpr ⟨_, hface t ht, rfl⟩
    have hΞt : Measurable fun x : V3 ℝ => Ξ (x, frontNormal (M l) t) := hΞm.comp (measurable_id'.prodMk measurable_const)
    rw [(embedding_right (frontNormal (M l) t)).lintegral_map, ← lintegral_const_mul _ (hΞt.const_mul _)]
    show _ = ∫⁻ p, ENNReal.ofReal (S.pA (node l)) * (K' (node l, p) + ∫⁻ y, S.lampK (node l, p) y * T (node l, p) y ∂S.area) ∂triMeasure (triMap (M l) t)
    refine lintegral_congr_ae ((inside_ae (triMap (M l) t)).mono fun p hpin => ?_)
    have hnn : frontNormal (M l) t = S.nrm (node l, p) := (B.lamps.flat l hl t ht p hpin).symm
    show ENNReal.ofReal (1 / W.st.lights.length) * (ENNReal.ofReal pA * Ξ (p, frontNormal (M l) t)) = _
    rw [← mul_assoc, ← ENNReal.ofReal_mul (by positivity), ← hpA]
    congr 1
    simp only [hΞ]
    congr 1
    rw [hnn]
    exact R.lampMean h B hl (hT.comp measurable_prodMk_left)
  · intro a ha b hb e
    have h1 := B.lamps.table.index a ha
    have h2 := B.lamps.table.index b hb
    rw [e, h2] at h1
    exact (Option.some.inj h1).symm
  · intro g hg hn
    have hL : W.lightAt g.1 = none := by
      cases hL : W.lightAt g.1 with
      | none => rfl
      | some L =>
        obtain ⟨l, hl, e⟩ := B.lamps.only g.1 (List.mem_map.mpr ⟨g, hg, rfl⟩) L hL
        exact absurd e (hn l hl)
    dsimp only
    rw [B.none g.1 hL]
    simp

/-- The law of the light subpath: its point on the light and its prefixes of k more points have density `lamps`. -/
theorem Works.light (h : S.Sound) (R : S.Works W n cam mat) (B : S.Lamped W node M sgn junk Ke ts) {G : Spot → Prop} (hG : ∀ᵐ x ∂surf S.Fs, G x) {N : ℕ} (hN : 1 ≤ N) (F : List Vert → ℝ≥0∞) {Ψ : Spot → List Node → ℝ≥0∞} (hΨ : Measurable fun q : Spot × List Node => Ψ q.1 q.2)
    (hF : ∀ zv z l, S.Lit zv z → z.1 ∈ S.Fs.map (·.1) → 0 < S.pA z.1 → G z → S.GoodL G z l → F (zv :: l.map S.toVert) = ∑ j ∈ Finset.range (l.length + 1), Ψ z (l.take j)) (rs : ℕ → Rnd) :
    average N 0 rs (fun rs' => valued O F (sampleSubpath W S.Q N .LE rs')) = ∫⁻ z, ∑ k ∈ Finset.range (max N 2), ∫⁻ l, S.lamps z l * Ψ z l ∂paths S.area k ∂surf S.Fs := by
  have hΨ1 : ∀ z, Measurable (Ψ z) := fun z => hΨ.comp measurable_prodMk_left
  have hzy : Measurable fun q : (Spot × Node) × List Node => Ψ q.1.1 (q.1.2 :: q.2) := by
    have e : Measurable fun q : (Spot × Node) × List Node => (q.1.1, q.1.2 :: q.2) := (measurable_fst.comp measurable_fst).prodMk (measurable_cons.comp ((measurable_snd.comp measurable_fst).prodMk measurable_snd))
    exact hΨ.comp e
  have hT : Measurable fun q : Spot × Node => S.rest (fun l => Ψ q.1 (q.2 :: l)) (N - 2) q.1.2 q.2 := measurable_rest h (Ψ := fun (q : Spot × Node) l => Ψ q.1 (q.2 :: l)) hzy _ (measurable_snd.comp measurable_fst) measurable_snd
  have hK' : Measurable fun z => Ψ z [] := hΨ.comp (measurable_id.prodMk measurable_const)
  have hbase : ∀ zv z, S.Lit zv z → z.1 ∈ S.Fs.map (·.1) → 0 < S.pA z.1 → G z → F [zv] = Ψ z [] := fun zv z h1 h2 h3 h4 => by
    have := hF zv z [] h1 h2 h3 h4 trivial
    simpa using this
  rw [average_first hN, R.firstLight h B hG (T := fun z y => S.rest (fun l => Ψ z (y :: l)) (N - 2) z.2 y) hK' hT hbase]
  · refine lintegral_congr fun z => ?_
    have hm : Measurable fun l => S.lamps z l * Ψ z l := (h.m_lamps measurable_const measurable_id).mul (hΨ1 z)
    have hc : Measurable fun q : Node × List Node => Ψ z (q.1 :: q.2) := (hΨ1 z).comp measurable_cons
    have hk : Measurable fun q : Node × List Node => S.lks z.2 q.1 q.2 := h.m_lks measurable_const measurable_fst measurable_snd
    have hlk : Measurable fun y => S.lampK z y := h.m_lampK measurable_const measurable_id
    have hmk : ∀ k, Measurable fun y => S.lampK z y * ∫⁻ l, S.lks z.2 y l * Ψ z (y :: l) ∂paths S.area k := fun k => hlk.mul (hk.mul hc).lintegral_prod_right'
    rw [show max N 2 = N - 2 + 1 + 1 by omega, Finset.sum_range_succ', lintegral_nil S.area _ hm, add_comm (Ψ z []), mul_add]
    congr 1
    unfold rest
    simp_rw [Finset.mul_sum]
    rw [lintegral_finsetSum _ fun k _ => hmk k, Finset.mul_sum]
    refine Finset.sum_congr rfl fun k _ => ?_
    rw [lintegral_cons S.area hm, ← lintegral_const_mul _ (hmk k)]
    refine lintegral_congr fun y => ?_
    have hy : Measurable fun l => S.lks z.2 y l * Ψ z (y :: l) := (hk.mul hc).comp measurable_prodMk_left
    rw [← lintegral_const_mul _ hy, ← lintegral_const_mul _ (hy.const_mul _)]
    refine lintegral_congr fun l => ?_
    simp only [lamps]
    ring
  · intro zv z y hlit hzj hpA hGz hy hfit hGy
    refine R.second h hG hN hlit.infinite hlit.p (lampK_ne hy).2.2.1 hfit F _ ((hΨ1 z).comp (measurable_cons.comp measurable_prodMk_left)) (fun l hl => ?_) rs
    have := hF zv z (y :: l) hlit hzj hpA hGz ⟨hy, hfit, hGy, hl⟩
    rw [List.map_cons] at this
    rw [this, List.length_cons, Finset.sum_range_succ', add_comm]
    rfl

end Site

end LM.Transport
