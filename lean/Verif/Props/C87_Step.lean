import Verif.Props.C87_Order
import Verif.Props.C87_Join
/-
  C87: the law of one step of the random walk.
-/
namespace LM.Transport
open MeasureTheory LM LM.Surface LM.Material LM.Light LM.MathF LM.Path LM.Render LM.Solid Set
open scoped ENNReal

namespace Site

/-- The materials of the scene `W`, with the densities of the site. -/
structure Works (S : Site) (W : World) (n : Int) (cam : Camera) (mat : Int → Mat) : Prop where
  matte : Matte W S.Q n cam S.Fs S.vertex mat S.C S.f
  pdf : ∀ j ∈ S.Fs.map (·.1), ∀ c ∈ S.C j, ∀ p wi wo, V3.dot wi wi = 1 → V3.dot wo wo = 1 → V3.dot wi (S.vertex j p).geom.n ≠ 0 → (mat j).pdfDirection (S.vertex j p).geom wi wo c false = some (S.P j c p wi wo)
  component : ∀ j ∈ S.Fs.map (·.1), ∀ c ∈ S.C j, ∀ p wi, V3.dot wi wi = 1 → V3.dot wi (S.vertex j p).geom.n ≠ 0 → (mat j).pdfComponent c (S.vertex j p).geom wi = some (S.pc j c p wi) ∧ 0 < S.pc j c p wi
  /-- the weight of a component is the inverse of its probability -/
  select : ∀ j ∈ S.Fs.map (·.1), ∀ p wi, V3.dot wi wi = 1 → V3.dot wi (S.vertex j p).geom.n ≠ 0 → ∀ u, 0 ≤ u → u < 1 → ∀ c w, (mat j).sampleComponent u (S.vertex j p).geom wi = some (c, w) → w * S.pc j c p wi = 1

/-- One more vertex, from o in direction d. The value is K if nothing is met, otherwise that of the vertex; O if it is undefined. -/
noncomputable def arrive (O : ℝ≥0∞) (W : World) (Q : Query) (K : ℝ≥0∞) (V : Vert → ℝ≥0∞) (o d : V3 ℝ) (b : ℝ) : ℝ≥0∞ :=
  match Q.isect o d with
  | none => K
  | some hit => match sampleComponent W b hit (-d) with
    | none => O
    | some (c, _) => V ⟨hit, c⟩

/-- One more vertex, in a direction sampled at a point of a surface. -/
noncomputable def goOn (O : ℝ≥0∞) (W : World) (Q : Query) (K : ℝ≥0∞) (V : Vert → ℝ≥0∞) (o : V3 ℝ) (b : ℝ) : DirRes → ℝ≥0∞
  | .undef => O
  | .fail => K
  | .ok d _ => arrive O W Q K V o d b

/-- The values of the components of what is met. -/
noncomputable def mean (S : Site) (T : Node → ℝ≥0∞) (o d : V3 ℝ) : ℝ≥0∞ :=
  match hitOf S.Q o d with
  | none => 0
  | some y => ∑ c ∈ S.C y.1, ENNReal.ofReal (S.pc y.1 c y.2 (-d)) * T (y, c)

variable {S : Site} {W : World} {n : Int} {cam : Camera} {mat : Int → Mat} {O : ℝ≥0∞}

theorem const_add (K : ℝ≥0∞) (f : ℝ → ℝ≥0∞) : ∫⁻ b, K + f b ∂uniform1 = K + ∫⁻ b, f b ∂uniform1 := by
  rw [lintegral_add_left measurable_const, int1_const]

theorem const_add3 (K : ℝ≥0∞) (f : ℝ × ℝ × ℝ → ℝ≥0∞) : ∫⁻ b, K + f b ∂uniform3 = K + ∫⁻ b, f b ∂uniform3 := by
  rw [lintegral_add_left measurable_const, int3_const]

/-- What holds at almost all points of the surfaces holds at what almost every ray meets. -/
theorem Sound.ae_hit (h : S.Sound) {G : Spot → Prop} (hG : ∀ᵐ x ∂surf S.Fs, G x) (o : V3 ℝ) : ∀ᵐ d ∂solidAngle, ∀ x, hitOf S.Q o d = some x → G x := by
  classical
  set N := toMeasurable (surf S.Fs) {x | ¬ G x} with hN
  have hN0 : surf S.Fs N = 0 := by rw [hN, measure_toMeasurable]; exact ae_iff.mp hG
  have hNm : MeasurableSet N := measurableSet_toMeasurable _ _
  let F : Spot → V3 ℝ → ℝ≥0∞ := fun x _ => N.indicator (fun _ => 1) x
  have hF : Adjoint.Meas F := (measurable_const.indicator hNm).comp measurable_fst
  have hz : ∫⁻ d, (match hitOf S.Q o d with | none => 0 | some x => F x d) ∂solidAngle = 0 := by
    refine (h.over o hF).trans ?_
    have hae : ∀ᵐ x ∂surf S.Fs, x ∉ N := by rw [ae_iff]; simpa using hN0
    rw [lintegral_congr_ae (hae.mono fun x hx => ?_), lintegral_zero]
    beta_reduce
    have : F x (dirOf (x.2 - o)) = 0 := indicator_of_notMem hx _
    rw [this]
    simp
  have hm : Measurable fun d => (match hitOf S.Q o d with | none => 0 | some x => F x d) :=
    h.faceted.measurable_hit (o := fun _ : V3 ℝ => o) (d := fun d => d) (F := fun d x => F x d) measurable_const measurable_id' (hF.comp measurable_swap)
  rw [lintegral_eq_zero_iff hm] at hz
  refine hz.mono fun d hd x hx => ?_
  simp only [hx, Pi.zero_apply] at hd
  by_contra hc
  have : F x d = 1 := indicator_of_mem (show x ∈ N from subset_toMeasurable _ _ hc) _
  rw [this] at hd
  exact one_ne_zero hd

/-- What a ray meets. -/
theorem Works.meet (h : S.Sound) (R : S.Works W n cam mat) {o d : V3 ℝ} (hd : V3.dot d d = 1) {y : Spot} (hy : hitOf S.Q o d = some y) :
    S.Q.isect o d = some (S.vertex y.1 y.2) ∧ y.1 ∈ S.Fs.map (·.1) ∧ d = dirOf (y.2 - o) ∧ Sees S.Q o y.1 y.2 ∧ S.Hop o y ∧ V3.dot (-d) (-d) = 1 ∧ V3.dot (-d) (S.vertex y.1 y.2).geom.n ≠ 0 := by
  have hi : S.Q.isect o d = some (S.vertex y.1 y.2) := by rw [h.faceted.hit hd, hy]; rfl
  obtain ⟨hj, hg⟩ := R.matte.face o d _ hd hi
  obtain ⟨hpr, hpp, -⟩ := h.faceted.at_point y.1 y.2
  rw [hpr] at hj
  obtain ⟨s, hs, e⟩ := h.faceted.ahead o d _ hd hi
  rw [hpp] at e
  have hdir : d = dirOf (y.2 - o) := by
    have e' : y.2 - o = s • d := by rw [e]; ext <;> simp
    unfold dirOf
    rw [e']
    have : V3.dot (s • d) (s • d) = s ^ 2 := by rw [V3.dot_smul_right, V3.dot_comm, V3.dot_smul_right, hd]; ring
    rw [this, Real.sqrt_sq hs.le, smul_smul, one_div_mul_cancel hs.ne', one_smul]
  have hneg : V3.dot (-d) (-d) = 1 := by simpa [V3.dot] using hd
  have hng : V3.dot (-d) (S.vertex y.1 y.2).geom.n ≠ 0 := by
    rw [V3.dot_comm, V3.dot_neg_right, V3.dot_comm]; exact neg_ne_zero.mpr hg
  refine ⟨hi, hj, hdir, ?_, ⟨?_, ?_⟩, hneg, hng⟩
  · unfold Sees
    rw [← hdir]
    exact hy
  · intro c
    rw [c] at e
    have : s • d = 0 := by
      have : y.2 = y.2 + s • d := e
      simpa using this.symm
    have h2 : V3.dot (s • d) (s • d) = s ^ 2 := by rw [V3.dot_smul_right, V3.dot_comm, V3.dot_smul_right, hd]; ring
    rw [this] at h2
    have : (0 : ℝ) = s ^ 2 := by rw [← h2]; simp [V3.dot]
    exact (pow_pos hs 2).ne this
  · rw [dirOf_swap o y.2, ← hdir]
    exact hng

/-- The component at the new vertex. -/
theorem Works.arrive (h : S.Sound) (R : S.Works W n cam mat) {o d : V3 ℝ} (hd : V3.dot d d = 1) {K : ℝ≥0∞} {V : Vert → ℝ≥0∞} {T : Node → ℝ≥0∞} (hV : ∀ y, hitOf S.Q o d = some y → ∀ c ∈ S.C y.1, V (S.toVert (y, c)) = K + T (y, c)) :
    ∫⁻ b, Site.arrive O W S.Q K V o d b ∂uniform1 = K + S.mean T o d := by
  unfold mean
  cases hy : hitOf S.Q o d with
  | none =>
    have hi : S.Q.isect o d = none := by rw [h.faceted.hit hd, hy]; rfl
    unfold Site.arrive
    simp only [hi]
    rw [int1_const, add_zero]
  | some y =>
    obtain ⟨hi, hj, -, -, -, hneg, hng⟩ := R.meet h hd hy
    obtain ⟨hk, _, hm⟩ := R.matte.surface y.1 hj y.2
    obtain ⟨hok, -⟩ := R.matte.material y.1 hj y.2 (-d) hneg hng
    have hpr := (h.faceted.at_point y.1 y.2).1
    dsimp only
    rw [← hok.sum fun c => ENNReal.ofReal (S.pc y.1 c y.2 (-d)) * T (y, c), ← const_add]
    refine lintegral_congr_ae (uniform1_ae.mono fun b hb => ?_)
    beta_reduce
    obtain ⟨c, w, e, hc, hw⟩ := hok.pick b hb.1 hb.2
    have hsc : sampleComponent W b (S.vertex y.1 y.2) (-d) = some (c, w) := by
      simp only [sampleComponent, hk, hpr, hm, Option.bind_some, e]
    unfold Site.arrive
    simp only [hi, hsc]
    rw [show V ⟨S.vertex y.1 y.2, c⟩ = K + T (y, c) from hV y hy c hc, e]
    simp only [compWorth]
    rw [← mul_assoc, ← ENNReal.ofReal_mul hw, R.select y.1 hj y.2 (-d) hneg hng b hb.1 hb.2 c w e, ENNReal.ofReal_one, one_mul]

/-- The mean over directions, by area. -/
theorem Sound.mean_area (h : S.Sound) {T : Node → ℝ≥0∞} (hT : Measurable T) {A : V3 ℝ → ℝ≥0∞} (hA : Measurable A) (o : V3 ℝ) :
    Measurable (S.mean T o) ∧ ∫⁻ d, A d * S.mean T o d ∂solidAngle = by classical exact ∫⁻ y, (if Sees S.Q o y.1.1 y.1.2 then A (dirOf (y.1.2 - o)) * ENNReal.ofReal (S.facing o y.1) * ENNReal.ofReal (S.pickR o y) else 0) * T y ∂S.area := by
  classical
  have hterm : Measurable fun q : Node × V3 ℝ => ENNReal.ofReal (S.pc q.1.1.1 q.1.2 q.1.1.2 (-q.2)) * T q.1 := by
    have : Measurable fun q : Node × V3 ℝ => (q.1, -q.2) := measurable_fst.prodMk (measurable_neg3.comp measurable_snd)
    exact (h.m_pc.comp this).ennreal_ofReal.mul (hT.comp measurable_fst)
  have hF : Adjoint.Meas fun (y : Spot) (d : V3 ℝ) => ∑ c ∈ S.C y.1, ENNReal.ofReal (S.pc y.1 c y.2 (-d)) * T (y, c) := by
    refine measurable_spot (F := fun (y : Spot) (d : V3 ℝ) => ∑ c ∈ S.C y.1, ENNReal.ofReal (S.pc y.1 c y.2 (-d)) * T (y, c)) fun j => ?_
    refine Finset.measurable_fun_sum (S.C j) fun c _ => ?_
    have e : Measurable fun q : V3 ℝ × V3 ℝ => ((((j, q.1), c), q.2) : Node × V3 ℝ) := ((measurable_const.prodMk measurable_fst).prodMk measurable_const).prodMk measurable_snd
    exact hterm.comp e
  have hmm : Measurable (S.mean T o) := h.faceted.measurable_hit (o := fun _ : V3 ℝ => o) (d := fun d => d) (F := fun d y => ∑ c ∈ S.C y.1, ENNReal.ofReal (S.pc y.1 c y.2 (-d)) * T (y, c)) measurable_const measurable_id' (hF.comp measurable_swap)
  refine ⟨hmm, ?_⟩
  have hAF : Adjoint.Meas fun (y : Spot) (d : V3 ℝ) => A d * ∑ c ∈ S.C y.1, ENNReal.ofReal (S.pc y.1 c y.2 (-d)) * T (y, c) := (hA.comp measurable_snd).mul hF
  have e1 : ∫⁻ d, A d * S.mean T o d ∂solidAngle = ∫⁻ d, (match hitOf S.Q o d with | none => 0 | some y => A d * ∑ c ∈ S.C y.1, ENNReal.ofReal (S.pc y.1 c y.2 (-d)) * T (y, c)) ∂solidAngle := lintegral_congr fun d => by
    unfold mean
    cases hitOf S.Q o d <;> simp
  rw [e1]
  refine (h.over o hAF).trans ?_
  have hms : Measurable fun y : Node => (if Sees S.Q o y.1.1 y.1.2 then A (dirOf (y.1.2 - o)) * ENNReal.ofReal (S.facing o y.1) * ENNReal.ofReal (S.pickR o y) else 0) * T y := by
    refine Measurable.mul (Measurable.ite ?_ ?_ measurable_const) hT
    · exact (measurable_const.prodMk measurable_fst) h.m_sees
    · have d1 : Measurable fun y : Node => dirOf (y.1.2 - o) := measurable_dirTo measurable_const (measurable_snd.comp measurable_fst)
      have d2 : Measurable fun y : Node => dirOf (o - y.1.2) := measurable_dirTo (measurable_snd.comp measurable_fst) measurable_const
      have f1 : Measurable fun y : Node => S.facing o y.1 := by
        unfold facing
        have v : Measurable fun y : Node => y.1.2 - o := measurable_sub3' (measurable_snd.comp measurable_fst) measurable_const
        exact (continuous_abs.measurable.comp (measurable_dot3 (h.m_nrm.comp measurable_fst) d1)).div (measurable_dot3 v v)
      have p1 : Measurable fun y : Node => S.pickR o y := h.m_pc.comp (measurable_id'.prodMk d2)
      exact ((hA.comp d1).mul f1.ennreal_ofReal).mul p1.ennreal_ofReal
  rw [area_surf hms]
  refine lintegral_congr fun x => ?_
  by_cases hs : Sees S.Q o x.1 x.2
  · simp only [if_pos hs]
    rw [Finset.mul_sum, Finset.mul_sum]
    refine Finset.sum_congr rfl fun c _ => ?_
    unfold pickR
    dsimp only
    rw [dirOf_swap o x.2]
    ring
  · simp only [if_neg hs, zero_mul, Finset.sum_const_zero]

theorem area_fit : ∀ᵐ y ∂S.area, S.Fit y := area_ae fun _ hg _ hc => Filter.Eventually.of_forall fun _ => ⟨List.mem_map.mpr ⟨_, hg, rfl⟩, hc⟩

/-- One step of the random walk, from x reached from w. -/
theorem Works.step (h : S.Sound) (R : S.Works W n cam mat) {G : Spot → Prop} (hG : ∀ᵐ x ∂surf S.Fs, G x) (dir : TransDir) {w : V3 ℝ} {x : Node} (hx : S.Fit x) (hw : S.Hop w x.1) {K : ℝ≥0∞} {V : Vert → ℝ≥0∞} {T : Node → ℝ≥0∞} (hT : Measurable T)
    (hV : ∀ y, S.lk w x y ≠ 0 → S.Fit y → G y.1 → V (S.toVert y) = K + T y) :
    averageStep (fun r => goOn O W S.Q K V x.1.2 r.comp (sampleDirection W r.dir (S.vertex x.1.1 x.1.2) (dirOf (w - x.1.2)) x.2 dir)) = K + ∫⁻ y, S.lk w x y * T y ∂S.area := by
  classical
  set wi := dirOf (w - x.1.2) with hwi
  have hu1 : V3.dot wi wi = 1 := unit_to hw.1.symm
  have hng : V3.dot wi (S.vertex x.1.1 x.1.2).geom.n ≠ 0 := hw.2
  obtain ⟨hk, _, hm⟩ := R.matte.surface x.1.1 hx.1 x.1.2
  have hm' : W.materialAt (S.vertex x.1.1 x.1.2).primitive = some (mat x.1.1) := by rw [(h.faceted.at_point _ _).1]; exact hm
  obtain ⟨hs, hden⟩ := (R.matte.material x.1.1 hx.1 x.1.2 wi hu1 hng).2 x.2 hx.2
  have hav : averageStep (fun r => goOn O W S.Q K V x.1.2 r.comp (sampleDirection W r.dir (S.vertex x.1.1 x.1.2) wi x.2 dir)) =
      ∫⁻ u, ∫⁻ b, goOn O W S.Q K V x.1.2 b (sampleDirection W ⟨u.1, u.2.1, u.2.2⟩ (S.vertex x.1.1 x.1.2) wi x.2 dir) ∂uniform1 ∂uniform3 := by
    unfold averageStep
    simp only [int1_const, averageLight_const]
  rw [hav]
  -- directions in the tangent plane have measure zero
  have hcos : ∀ᵐ d ∂solidAngle, V3.dot d (S.vertex x.1.1 x.1.2).geom.n ≠ 0 := by
    have hn1 : V3.dot (S.vertex x.1.1 x.1.2).geom.n (S.vertex x.1.1 x.1.2).geom.n = 1 := by
      have := (R.matte.surface x.1.1 hx.1 x.1.2).2.1
      exact this.2.2.1
    exact grazing_null (by intro c; rw [c] at hn1; simp [V3.dot] at hn1)
  have key : ∀ᵐ u ∂uniform3, ∫⁻ b, goOn O W S.Q K V x.1.2 b (sampleDirection W ⟨u.1, u.2.1, u.2.2⟩ (S.vertex x.1.1 x.1.2) wi x.2 dir) ∂uniform1 =
      K + (match (dirW ((mat x.1.1).sampleDirection ⟨u.1, u.2.1, u.2.2⟩ (S.vertex x.1.1 x.1.2).geom wi x.2 dir)).map (·.1) with | some d => S.mean T x.1.2 d | none => 0) := by
    filter_upwards [cube_ae, sample_null hden dir (h.ae_hit hG x.1.2), sample_null hden dir hcos] with u hu hg hc
    have hest := hs.estimates ⟨u.1, u.2.1, u.2.2⟩ dir ⟨hu.1, hu.2.1, hu.2.2⟩
    rw [sample_at hk hm']
    cases e : (mat x.1.1).sampleDirection ⟨u.1, u.2.1, u.2.2⟩ (S.vertex x.1.1 x.1.2).geom wi x.2 dir with
    | undef => rw [e] at hest; exact hest.elim
    | fail => simp only [goOn, int1_const, dirW, Option.map_none, add_zero]
    | ok d C =>
      rw [e] at hest
      obtain ⟨hun, q, F, eq, -, hq, -⟩ := hest
      simp only [goOn, dirW, Option.map_some]
      refine R.arrive h hun fun y hy c hc' => ?_
      obtain ⟨-, hj, hdir, hsee, hop, hneg, hngy⟩ := R.meet h hun hy
      refine hV (y, c) ?_ ⟨hj, hc'⟩ (hg d C e y hy)
      unfold lk
      rw [if_pos hsee]
      refine (ENNReal.ofReal_pos.mpr ?_).ne'
      unfold linkR goR pickR
      dsimp only
      rw [R.pdf x.1.1 hx.1 x.2 hx.2 x.1.2 wi d hu1 hun hng] at eq
      cases eq
      have hcp : 0 < S.cosAt x.1 y.2 := by
        unfold cosAt
        rw [← hdir, V3.dot_comm]
        exact abs_pos.mpr (hc d C e)
      have hpp : 0 < S.pc y.1 c y.2 (dirOf (x.1.2 - y.2)) := by
        rw [dirOf_swap x.1.2 y.2, ← hdir]
        exact (R.component y.1 hj c hc' y.2 (-d) hneg hngy).2
      rw [← hdir]
      exact mul_pos (mul_pos (mul_pos hq hcp) (facing_pos hop)) hpp
  have hPm : Measurable fun d => S.P x.1.1 x.2 x.1.2 wi d := by
    have e : Measurable fun d : V3 ℝ => ((x, wi, d) : Node × V3 ℝ × V3 ℝ) := measurable_const.prodMk (measurable_const.prodMk measurable_id)
    exact h.m_P.comp e
  have hA : Measurable fun d => ENNReal.ofReal (S.P x.1.1 x.2 x.1.2 wi d) * ENNReal.ofReal |V3.dot d (S.vertex x.1.1 x.1.2).geom.n| := hPm.ennreal_ofReal.mul (continuous_abs.measurable.comp (measurable_dotc _)).ennreal_ofReal
  obtain ⟨hmm, harea⟩ := h.mean_area hT hA x.1.2
  rw [lintegral_congr_ae key, const_add3]
  congr 1
  refine (lintegral_sample (hasDensityO_iff (hden dir)) (S.mean T x.1.2) hmm.aemeasurable _ (Filter.Eventually.of_forall fun u => ?_)).trans ?_
  · beta_reduce
    generalize (dirW ((mat x.1.1).sampleDirection ⟨u.1, u.2.1, u.2.2⟩ (S.vertex x.1.1 x.1.2).geom wi x.2 dir)).map (·.1) = o
    cases o <;> rfl
  have e2 := lintegral_projSA (n := (S.vertex x.1.1 x.1.2).geom.n) MeasurableSet.univ fun d => Solid.dens ((mat x.1.1).pdfDirection (S.vertex x.1.1 x.1.2).geom wi d x.2 false) * S.mean T x.1.2 d
  rw [Measure.restrict_univ, Measure.restrict_univ] at e2
  rw [e2]
  have e3 : ∫⁻ d, ENNReal.ofReal |V3.dot d (S.vertex x.1.1 x.1.2).geom.n| * (Solid.dens ((mat x.1.1).pdfDirection (S.vertex x.1.1 x.1.2).geom wi d x.2 false) * S.mean T x.1.2 d) ∂solidAngle =
      ∫⁻ d, ENNReal.ofReal (S.P x.1.1 x.2 x.1.2 wi d) * ENNReal.ofReal |V3.dot d (S.vertex x.1.1 x.1.2).geom.n| * S.mean T x.1.2 d ∂solidAngle := by
    refine lintegral_congr_ae (solidAngle_unit.mono fun d hd => ?_)
    beta_reduce
    rw [R.pdf x.1.1 hx.1 x.2 hx.2 x.1.2 wi d hu1 hd hng]
    simp only [Solid.dens]
    ring
  rw [e3, harea]
  refine lintegral_congr_ae (area_fit.mono fun y hy => ?_)
  beta_reduce
  congr 1
  unfold lk
  by_cases hsee : Sees S.Q x.1.2 y.1.1 y.1.2
  · rw [if_pos hsee, if_pos hsee]
    unfold linkR goR
    by_cases he : y.1.2 = x.1.2
    · have : S.facing x.1.2 y.1 = 0 := by unfold facing; rw [he]; simp [V3.dot]
      rw [this]; simp
    · have hun : V3.dot (dirOf (y.1.2 - x.1.2)) (dirOf (y.1.2 - x.1.2)) = 1 := unit_to (Ne.symm he)
      obtain ⟨-, hj, -, -, -, hneg, hngy⟩ := R.meet h hun (y := y.1) hsee
      have hpp : 0 ≤ S.pickR x.1.2 y := by
        unfold pickR
        rw [dirOf_swap x.1.2 y.1.2]
        exact (R.component y.1.1 hj y.2 hy.2 y.1.2 _ hneg hngy).2.le
      have h0 : 0 ≤ S.facing x.1.2 y.1 := div_nonneg (abs_nonneg _) (by unfold V3.dot; nlinarith [sq_nonneg (y.1.2 - x.1.2).x, sq_nonneg (y.1.2 - x.1.2).y, sq_nonneg (y.1.2 - x.1.2).z])
      rw [ENNReal.ofReal_mul' hpp, ENNReal.ofReal_mul' h0, ENNReal.ofReal_mul' (show 0 ≤ S.cosAt x.1 y.1.2 from abs_nonneg _), V3.dot_comm (dirOf _)]
      rfl
  · rw [if_neg hsee, if_neg hsee]

end Site

end LM.Transport
