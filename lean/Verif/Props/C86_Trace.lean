import Verif.Props.C86_Scene
/-
  C86: the random walk of the light tracer in scenes of triangles.
-/
namespace LM.Transport
open MeasureTheory LM LM.Surface LM.Material LM.Light LM.MathF LM.Path LM.Render LM.Solid Set
open scoped ENNReal

variable {W : World} {Q : Query} {n : Int} {cam : Camera} {Fs : List (Int × Tri)} {vertex : Int → V3 ℝ → SI} {m : Int → Mat} {C : Int → Finset ℕ} {f : Int → ℕ → V3 ℝ → V3 ℝ → V3 ℝ → V3 ℝ}

/-- A point of a surface that is not in the plane through the camera, from which the camera is visible if it sees the point. -/
def ClearAt (W : World) (Q : Query) (n : Int) (cam : Camera) (vertex : Int → V3 ℝ → SI) (x : Spot) : Prop :=
  (toEye cam (x.2 - cam.position)).z ≠ 0 ∧ (Q.visible (vertex x.1 x.2) (camVertex W n cam) = true ↔ Sees Q cam.position x.1 x.2)

/-- Almost every ray from a point meets points with a property that almost all points of the surfaces have. -/
theorem Faceted.almost (h : Faceted Q Fs vertex) {R : Spot → Prop} (hR : ∀ g ∈ Fs, ∀ᵐ p ∂triMeasure g.2, R (g.1, p)) (o : V3 ℝ) : ∀ᵐ d ∂solidAngle, ∀ x, hitOf Q o d = some x → R x := by
  classical
  let μ : Int → Measure (V3 ℝ) := fun j => ((Fs.filter (·.1 = j)).map fun g => triMeasure g.2).sum
  have hμ : ∀ j, ∀ᵐ p ∂μ j, R (j, p) := fun j => by
    refine ae_map_sum _ (fun g : Int × Tri => triMeasure g.2) _ fun g hg => ?_
    obtain ⟨hg', e⟩ := List.mem_filter.mp hg
    have e : g.1 = j := by simpa using e
    have := hR g hg'
    rw [e] at this
    exact this
  let N : Int → Set (V3 ℝ) := fun j => toMeasurable (μ j) {p | ¬ R (j, p)}
  have hN0 : ∀ j, μ j (N j) = 0 := fun j => by
    show μ j (toMeasurable _ _) = 0
    rw [measure_toMeasurable]; exact ae_iff.mp (hμ j)
  have hNm : ∀ j, MeasurableSet (N j) := fun j => measurableSet_toMeasurable _ _
  have hNt : ∀ g ∈ Fs, triMeasure g.2 (N g.1) = 0 := fun g hg => by
    have h0 := hN0 g.1
    show triMeasure g.2 (N g.1) = 0
    have e : ((Fs.filter (·.1 = g.1)).map fun g' => triMeasure g'.2 (N g.1)).sum = 0 := by rw [← map_sum_apply]; exact h0
    exact List.sum_eq_zero_iff.mp e _ (List.mem_map.mpr ⟨g, List.mem_filter.mpr ⟨hg, by simp⟩, rfl⟩)
  let F : Spot → V3 ℝ → ℝ≥0∞ := fun x _ => (N x.1).indicator (fun _ => 1) x.2
  have hFj : ∀ j, Measurable fun q : V3 ℝ × V3 ℝ => F (j, q.1) q.2 := fun j => by
    have : Measurable fun p : V3 ℝ => (N j).indicator (fun _ => (1 : ℝ≥0∞)) p := measurable_const.indicator (hNm j)
    exact this.comp measurable_fst
  have hz : ∫⁻ d, (match hitOf Q o d with | none => 0 | some x => F x d) ∂solidAngle = 0 := by
    refine (h.over o hFj).trans ?_
    refine List.sum_eq_zero fun y hy => ?_
    obtain ⟨g, hg, rfl⟩ := List.mem_map.mp hy
    have hae : ∀ᵐ p ∂triMeasure g.2, p ∉ N g.1 := by rw [ae_iff]; simpa using hNt g hg
    rw [lintegral_congr_ae (hae.mono fun p hp => ?_), lintegral_zero]
    beta_reduce
    have : F (g.1, p) (dirOf (p - o)) = 0 := indicator_of_notMem hp _
    rw [this]
    simp
  have hm : Measurable fun d => (match hitOf Q o d with | none => 0 | some x => F x d) := by
    have h1 : Measurable fun q : V3 ℝ × Spot => F q.2 q.1 := (measurable_spot (F := F) hFj).comp measurable_swap
    exact h.measurable_hit (o := fun _ : V3 ℝ => o) (d := fun d => d) (F := fun d x => F x d) measurable_const measurable_id' h1
  rw [lintegral_eq_zero_iff hm] at hz
  refine hz.mono fun d hd x hx => ?_
  simp only [hx, Pi.zero_apply] at hd
  by_contra hc
  have : F x d = 1 := indicator_of_mem (show x.2 ∈ N x.1 from subset_toMeasurable _ _ hc) _
  rw [this] at hd
  exact one_ne_zero hd

/-- Almost every ray meets such points. -/
theorem Matte.clear (h : Matte W Q n cam Fs vertex m C f) (o : V3 ℝ) : ∀ᵐ d ∂solidAngle, ∀ x, hitOf Q o d = some x → ClearAt W Q n cam vertex x := h.faceted.almost h.sight o

/-- The points where the light tracer arrives. -/
def Arrived (W : World) (Q : Query) (n : Int) (cam : Camera) (vertex : Int → V3 ℝ → SI) (sp : SI) (wi : V3 ℝ) : Prop :=
  ∃ o d, V3.dot d d = 1 ∧ Q.isect o d = some sp ∧ wi = -d ∧ ClearAt W Q n cam vertex (sp.primitive, sp.geom.p)

theorem Matte.arrived (h : Matte W Q n cam Fs vertex m C f) {sp : SI} {wi : V3 ℝ} (ha : Arrived W Q n cam vertex sp wi) :
    ∃ j p, sp = vertex j p ∧ j ∈ Fs.map (·.1) ∧ V3.dot wi wi = 1 ∧ V3.dot wi (vertex j p).geom.n ≠ 0 ∧ ClearAt W Q n cam vertex (j, p) := by
  obtain ⟨o, d, hd, hi, rfl, hc⟩ := ha
  obtain ⟨hj, hg⟩ := h.face o d sp hd hi
  have hs := h.faceted.same o d sp hd hi
  refine ⟨sp.primitive, sp.geom.p, hs, hj, by simpa [V3.dot] using hd, ?_, hc⟩
  rw [← hs, V3.dot_comm, V3.dot_neg_right, V3.dot_comm]
  exact neg_ne_zero.mpr hg

/-! ### Sampling directions -/

theorem sample_at {W : World} {sp : SI} (hk : sp.kind = .surface) {m : Mat} (hm : W.materialAt sp.primitive = some m) (u : DirU) (wi : V3 ℝ) (c : ℕ) (dir : TransDir) : sampleDirection W u sp wi c dir =
    match m.sampleDirection u sp.geom wi c dir with
    | .ok wo C => .ok wo (shadingNormalCorrection sp.geom wi wo dir • C)
    | r => r := by
  simp only [sampleDirection, hk, hm]
  rfl

theorem worth_at {W : World} {sp : SI} (hk : sp.kind = .surface) {m : Mat} (hm : W.materialAt sp.primitive = some m) (u : DirU) (wi : V3 ℝ) (c : ℕ) (dir : TransDir) (i : Fin 3) (L : V3 ℝ → ℝ≥0∞) :
    worth i L (sampleDirection W u sp wi c dir) = worth i (fun d => ENNReal.ofReal (shadingNormalCorrection sp.geom wi d dir) * L d) (m.sampleDirection u sp.geom wi c dir) := by
  rw [sample_at hk hm]
  cases m.sampleDirection u sp.geom wi c dir with
  | ok wo C =>
    simp only [worth, chan_smul, ENNReal.ofReal_mul (snc_nonneg' _ _ _ _)]
    ring
  | fail => rfl
  | undef => rfl

theorem Matte.unbiased (h : Matte W Q n cam Fs vertex m C f) (i : Fin 3) (dir : TransDir) {j : Int} (hj : j ∈ Fs.map (·.1)) {c : ℕ} (hc : c ∈ C j) (p : V3 ℝ) {wi : V3 ℝ} (hwi : V3.dot wi wi = 1)
    (hg : V3.dot wi (vertex j p).geom.n ≠ 0) (L : V3 ℝ → ℝ≥0∞) (hL : Measurable L) :
    ∫⁻ u, worth i L (sampleDirection W ⟨u.1, u.2.1, u.2.2⟩ (vertex j p) wi c dir) ∂uniform3 = ∫⁻ d, L d ∂scatterBy W i dir (vertex j p) wi c := by
  obtain ⟨hk, _, hm⟩ := h.surface j hj p
  have hpr := (h.faceted.at_point j p).1
  have hm' : W.materialAt (vertex j p).primitive = some (m j) := by rw [hpr]; exact hm
  have hsm : Measurable fun q : V3 ℝ × V3 ℝ × V3 ℝ => shadingNormalCorrection (vertex j q.1).geom q.2.1 q.2.2 dir := measurable_snc' (g := fun p => (vertex j p).geom) (h.normal j) (h.faceted.gn j) dir
  have h1 : Measurable fun d => ENNReal.ofReal (shadingNormalCorrection (vertex j p).geom wi d dir) := (hsm.comp (measurable_const.prodMk (measurable_const.prodMk measurable_id))).ennreal_ofReal
  have h2 : Measurable fun d => ENNReal.ofReal (shadingNormalCorrection (vertex j p).geom wi d dir) * L d := h1.mul hL
  simp_rw [worth_at hk hm']
  have hub := (((h.material j hj p wi hwi hg).2 c hc).1.unbiased dir) i _ h2
  beta_reduce at hub
  rw [hub, h.scatter i dir hj hc p hwi hg, lintegral_withDensity_eq_lintegral_mul_non_measurable _ (h.measurable_kern_from i dir c (j, p) wi) (Filter.Eventually.of_forall fun d => kern_lt_top _ _ _ _ _ _ _ _)]
  unfold projSolidAngle
  have h0 : Measurable fun d : V3 ℝ => ENNReal.ofReal |V3.dot d (vertex j p).geom.n| := (continuous_abs.measurable.comp (measurable_dotc _)).ennreal_ofReal
  rw [lintegral_withDensity_eq_lintegral_mul_non_measurable _ h0 (Filter.Eventually.of_forall fun d => ENNReal.ofReal_lt_top)]
  refine lintegral_congr_ae (solidAngle_unit.mono fun d hd => ?_)
  beta_reduce
  rw [Pi.mul_apply, Pi.mul_apply, (h.eval j hj c hc p wi d hwi hd hg).2 dir false]
  unfold kern
  simp only [Solid.value]
  ring

theorem sample_null {m : Mat} {c : ℕ} {g : Geom} {wi : V3 ℝ} (h : MaterialDensity m c g wi) (dir : TransDir) {P : V3 ℝ → Prop} (hP : ∀ᵐ d ∂solidAngle, P d) :
    ∀ᵐ u ∂uniform3, ∀ wo C, m.sampleDirection ⟨u.1, u.2.1, u.2.2⟩ g wi c dir = .ok wo C → P wo := by
  set N := toMeasurable solidAngle {d | ¬ P d} with hN
  have hN0 : solidAngle N = 0 := by rw [hN, measure_toMeasurable]; exact ae_iff.mp hP
  have hNm : MeasurableSet N := measurableSet_toMeasurable _ _
  have h1 := ((h dir).2 N hNm).2
  have h2 : projSolidAngle g.n N = 0 := (withDensity_absolutelyContinuous solidAngle _) hN0
  rw [setLIntegral_measure_zero _ _ h2] at h1
  rw [ae_iff]
  refine measure_mono_null ?_ h1
  intro u hu
  simp only [mem_ofPred_eq, not_forall] at hu
  obtain ⟨wo, C, e, hn⟩ := hu
  exact ⟨wo, C, e, subset_toMeasurable _ _ hn⟩

theorem Matte.direction (h : Matte W Q n cam Fs vertex m C f) (dir : TransDir) {j : Int} (hj : j ∈ Fs.map (·.1)) {c : ℕ} (hc : c ∈ C j) (p : V3 ℝ) {wi : V3 ℝ} (hwi : V3.dot wi wi = 1)
    (hg : V3.dot wi (vertex j p).geom.n ≠ 0) : ∀ᵐ u ∂uniform3, sampleDirection W ⟨u.1, u.2.1, u.2.2⟩ (vertex j p) wi c dir ≠ .undef ∧
      ∀ wo K, sampleDirection W ⟨u.1, u.2.1, u.2.2⟩ (vertex j p) wi c dir = .ok wo K → NonNeg K ∧ V3.dot wo wo = 1 ∧ ∀ hit, Q.isect p wo = some hit → Arrived W Q n cam vertex hit (-wo) := by
  obtain ⟨hk, _, hm⟩ := h.surface j hj p
  have hm' : W.materialAt (vertex j p).primitive = some (m j) := by rw [(h.faceted.at_point j p).1]; exact hm
  obtain ⟨hs, hden⟩ := (h.material j hj p wi hwi hg).2 c hc
  filter_upwards [cube_ae, sample_null hden dir (h.clear p)] with u hu hcl
  have hest := hs.estimates ⟨u.1, u.2.1, u.2.2⟩ dir ⟨hu.1, hu.2.1, hu.2.2⟩
  rw [sample_at hk hm']
  cases e : (m j).sampleDirection ⟨u.1, u.2.1, u.2.2⟩ (vertex j p).geom wi c dir with
  | undef => rw [e] at hest; exact hest.elim
  | fail => exact ⟨by simp, fun wo K h => by cases h⟩
  | ok wo' K' =>
    rw [e] at hest
    obtain ⟨hun, q, F, eq, eF, hq, hK⟩ := hest
    refine ⟨by simp, fun wo K e' => ?_⟩
    cases e'
    obtain ⟨hnn, hev⟩ := h.eval j hj c hc p wi wo' hwi hun hg
    refine ⟨nonneg_smul (snc_nonneg' _ _ _ _) ?_, hun, fun hit hi => ⟨p, wo', hun, hi, rfl, ?_⟩⟩
    · rw [hev dir false] at eF
      cases eF
      have : K' = (1 / q) • f j c p wi wo' := by rw [← hK, smul_smul, one_div_mul_cancel hq.ne', one_smul]
      rw [this]
      exact nonneg_smul (by positivity) hnn
    · exact hcl wo' K' e _ (by simp [hitOf, hi])

/-! ### The sensor -/

open Classical in
/-- What the camera records of the light that a point sends to it, divided by what a surface of the same size, facing the camera, would send. `P` is the density of the camera's rays. -/
noncomputable def importance (W : World) (Q : Query) (cam : Camera) (H : ℝ × ℝ → ℝ≥0∞) (P : V3 ℝ → ℝ) (x : Spot) : ℝ≥0∞ :=
  if Sees Q cam.position x.1 x.2 then onFilm W H 1 (0, 0) (dirOf (x.2 - cam.position)) * ENNReal.ofReal (P (dirOf (x.2 - cam.position)) / V3.dot (x.2 - cam.position) (x.2 - cam.position)) else 0

/-- What the camera records of the light that arrives at x from wi and is scattered by component c. -/
noncomputable def sensorAt (W : World) (Q : Query) (cam : Camera) (vertex : Int → V3 ℝ → SI) (f : Int → ℕ → V3 ℝ → V3 ℝ → V3 ℝ → V3 ℝ) (i : Fin 3) (H : ℝ × ℝ → ℝ≥0∞) (P : V3 ℝ → ℝ) (sp : SI) (wi : V3 ℝ) (c : ℕ) : ℝ≥0∞ :=
  importance W Q cam H P (sp.primitive, sp.geom.p) * kern vertex f i .LE c (sp.primitive, sp.geom.p) wi (-dirOf (sp.geom.p - cam.position))

theorem dot_sub_swap (p q : V3 ℝ) : V3.dot (p - q) (p - q) = V3.dot (q - p) (q - p) := by simp [V3.dot]; ring

theorem chan_all (i : Fin 3) (x : ℝ) : chan i (V3.all x) = x := by fin_cases i <;> rfl

theorem Matte.sensor (h : Matte W Q n cam Fs vertex m C f) (i : Fin 3) (H : ℝ × ℝ → ℝ≥0∞) {P : V3 ℝ → ℝ} (hP : ∀ d, camPdfDirection cam d = some (P d)) (hP0 : ∀ d, 0 ≤ P d) (nv : ℕ) {j : Int} (hj : j ∈ Fs.map (·.1))
    {c : ℕ} (hc : c ∈ C j) (p : V3 ℝ) {wi : V3 ℝ} (hwi : V3.dot wi wi = 1) (hg : V3.dot wi (vertex j p).geom.n ≠ 0) (hcl : ClearAt W Q n cam vertex (j, p)) (thr : V3 ℝ) (hthr : NonNeg thr) (rp : ℝ × ℝ) (r : Rnd) :
    measured i H (ltNee W Q nv ⟨vertex j p, c, wi, thr, rp⟩ r) = ENNReal.ofReal (chan i thr) * sensorAt W Q cam vertex f i H P (vertex j p) wi c := by
  obtain ⟨hpr, hpp, hinf, hdeg⟩ := h.faceted.at_point j p
  obtain ⟨hz, hvis⟩ := hcl
  dsimp only at hz hvis
  set v := p - cam.position with hv
  have hv0 : V3.dot v v ≠ 0 := by
    intro e
    apply hz
    rw [dot_self_zero e]
    simp [toEye, V3.dot]
  have hvp : 0 < V3.dot v v := lt_of_le_of_ne (dot_self_nonneg v) (Ne.symm hv0)
  set d := dirOf v with hd
  have hdu : V3.dot d d = 1 := (dirOf_spec hvp).1
  have hsq : 0 < Real.sqrt (V3.dot v v) := Real.sqrt_pos.mpr hvp
  have hnorm : normalize v = some d := by unfold Material.normalize; rw [if_neg hv0]; rfl
  have hzd : -(toEye cam d).z ≠ 0 := by
    have : (toEye cam d).z = 1 / Real.sqrt (V3.dot v v) * (toEye cam v).z := by
      show V3.dot cam.w (dirOf v) = _
      unfold dirOf
      rw [V3.dot_smul_right]; rfl
    rw [this]
    exact neg_ne_zero.mpr (mul_ne_zero (one_div_ne_zero hsq.ne') hz)
  obtain ⟨_, htf, hasp⟩ := h.proper
  have hden : cam.tf * cam.tf * cam.aspect * 4 ≠ 0 := by positivity
  obtain ⟨J, hJ⟩ : ∃ J, camJ cam d = some J := ⟨_, by simp only [camJ, divF, hzd, hden, if_false, Option.bind_eq_bind, Option.bind_some]; rfl⟩
  have hdn : V3.dot (-d) (-d) = 1 := by simpa [V3.dot] using hdu
  have hG : geometryTerm (vertex j p).geom (makeDegenerated cam.position W.junk) = some (|V3.dot (-d) (vertex j p).geom.n| / V3.dot v v) := by
    unfold geometryTerm
    have e : (makeDegenerated cam.position W.junk).p - (vertex j p).geom.p = -v := by rw [hpp, hv]; simp [makeDegenerated]
    have e2 : V3.dot (-v) (-v) = V3.dot v v := by simp [V3.dot]
    have e3 : (1 / Real.sqrt (V3.dot v v)) • (-v) = -d := by rw [smul_neg]; rfl
    simp only [hinf, hdeg, e, e2, e3, if_neg hv0, Bool.false_and, Bool.false_or, Bool.false_eq_true, if_false]
    simp only [makeDegenerated, Bool.false_eq_true, if_false, Bool.or_false, if_true, mul_one]
    rw [V3.dot_comm]
  unfold sensorAt importance
  rw [hpr, hpp]
  dsimp only
  rw [← hv, ← hd]
  unfold ltNee
  simp only [sampleDirect, h.camera, h.cameraAt, camSampleDirect, hinf, hpp, Bool.false_eq_true, if_false, ← hv, hnorm, hJ, rayOrFail, camPdfDirect, hG, overG, Option.map_some, Option.some.injEq]
  by_cases hg0 : |V3.dot (-d) (vertex j p).geom.n| / V3.dot v v = 0
  · have hn0 : |V3.dot (-d) (vertex j p).geom.n| = 0 := by
      rcases div_eq_zero_iff.mp hg0 with h | h
      · exact h
      · exact absurd h hv0
    have hk0 : kern vertex f i .LE c (j, p) wi (-d) = 0 := by
      unfold kern
      dsimp only
      rw [hn0]; simp
    rw [hk0]
    simp [hg0, wrap, measured]
  · have hi : (1 : ℝ) / (|V3.dot (-d) (vertex j p).geom.n| / V3.dot v v) ≠ 0 := one_div_ne_zero hg0
    simp only [hg0, if_false, hi, ray, divV, wrap, one_smul]
    by_cases hs : Sees Q cam.position j p
    · have hvv : Q.visible (vertex j p) ⟨.camera, n, makeDegenerated cam.position W.junk⟩ = true := hvis.mpr hs
      rw [if_pos hs]
      simp only [hvv, Bool.not_true, Bool.false_eq_true, if_false]
      have hra : rasterAt W d = some (rasterPosition cam d) := by simp only [rasterAt, h.camera, Option.bind_some, h.cameraAt, Option.map_some]
      unfold onFilm
      simp only [if_true, hra, Option.bind_eq_bind, Option.bind_some]
      cases hr : rasterPosition cam d with
      | none => simp [measured]
      | some q =>
        have hPJ : P d = J := by
          have := hP d
          simp only [camPdfDirection, hr, hJ, Option.some.injEq] at this
          exact this.symm
        have hnn := (h.eval j hj c hc p wi (-d) hwi hdn hg).1
        simp only [h.value .LE hj hc p hwi hdn hg true, Option.bind_some, Option.pure_def, measured, List.map_cons, List.map_nil, List.sum_cons, List.sum_nil, add_zero, chan_mul, chan_smul, chan_all, hPJ]
        have hJ0 : 0 ≤ J := hPJ ▸ hP0 d
        have hs0 := snc_nonneg' (vertex j p).geom wi (-d) .LE
        have hf0 := chan_nonneg hnn i
        have ht0 := chan_nonneg hthr i
        unfold kern
        dsimp only
        have e : chan i thr * (shadingNormalCorrection (vertex j p).geom wi (-d) .LE * chan i (f j c p wi (-d))) * (1 / (1 / (|V3.dot (-d) (vertex j p).geom.n| / V3.dot v v)) * J) =
            chan i thr * ((J / V3.dot v v) * (|V3.dot (-d) (vertex j p).geom.n| * (shadingNormalCorrection (vertex j p).geom wi (-d) .LE * chan i (f j c p wi (-d))))) := by
          rw [one_div_one_div]; ring
        rw [e, ENNReal.ofReal_mul ht0, ENNReal.ofReal_mul (div_nonneg hJ0 hvp.le), ENNReal.ofReal_mul (abs_nonneg _), ENNReal.ofReal_mul hs0]
        ring
    · have hvv : Q.visible (vertex j p) ⟨.camera, n, makeDegenerated cam.position W.junk⟩ = false := by
        rw [← Bool.not_eq_true]; exact fun hc => hs (hvis.mp hc)
      rw [if_neg hs]
      simp [hvv, measured]

/-- What the camera records, of all components. -/
noncomputable def recorded (W : World) (Q : Query) (cam : Camera) (vertex : Int → V3 ℝ → SI) (C : Int → Finset ℕ) (f : Int → ℕ → V3 ℝ → V3 ℝ → V3 ℝ → V3 ℝ) (i : Fin 3) (H : ℝ × ℝ → ℝ≥0∞) (P : V3 ℝ → ℝ) (x : Spot) (wi : V3 ℝ) : ℝ≥0∞ :=
  importance W Q cam H P x * kernel vertex C f i .LE x wi (-dirOf (x.2 - cam.position))

theorem Matte.measurable_importance_at (h : Matte W Q n cam Fs vertex m C f) {H : ℝ × ℝ → ℝ≥0∞} (hH : Measurable H) {P : V3 ℝ → ℝ} (hP : Measurable P) (j : Int) : Measurable fun p => importance W Q cam H P (j, p) := by
  classical
  have hv : Measurable fun p : V3 ℝ => p - cam.position := measurable_sub3' measurable_id' measurable_const
  have hd : Measurable fun p : V3 ℝ => dirOf (p - cam.position) := measurable_dirOf.comp hv
  have hs : MeasurableSet {p : V3 ℝ | Sees Q cam.position j p} := (measurable_const.prodMk measurable_id') (h.faceted.measurable_sees j)
  have hon : Measurable fun p : V3 ℝ => onFilm W H 1 (0, 0) (dirOf (p - cam.position)) := (measurable_onCamera W n cam h.camera h.cameraAt H hH (0, 0)).comp hd
  have hPd : Measurable fun p : V3 ℝ => P (dirOf (p - cam.position)) := hP.comp hd
  have hdot : Measurable fun p : V3 ℝ => V3.dot (p - cam.position) (p - cam.position) := measurable_dot3 hv hv
  have h1 : Measurable fun p : V3 ℝ => onFilm W H 1 (0, 0) (dirOf (p - cam.position)) * ENNReal.ofReal (P (dirOf (p - cam.position)) / V3.dot (p - cam.position) (p - cam.position)) := hon.mul (hPd.div hdot).ennreal_ofReal
  exact Measurable.ite hs h1 measurable_const

theorem Matte.measurable_importance (h : Matte W Q n cam Fs vertex m C f) {H : ℝ × ℝ → ℝ≥0∞} (hH : Measurable H) {P : V3 ℝ → ℝ} (hP : Measurable P) : Measurable fun q : Spot × V3 ℝ => importance W Q cam H P q.1 :=
  measurable_spot (F := fun x (_ : V3 ℝ) => importance W Q cam H P x) fun j => (h.measurable_importance_at hH hP j).comp measurable_fst

theorem Matte.measurable_recorded (h : Matte W Q n cam Fs vertex m C f) (i : Fin 3) {H : ℝ × ℝ → ℝ≥0∞} (hH : Measurable H) {P : V3 ℝ → ℝ} (hP : Measurable P) : Adjoint.Meas (recorded W Q cam vertex C f i H P) := by
  have hd : Measurable fun q : Spot × V3 ℝ => -dirOf (q.1.2 - cam.position) := measurable_neg3.comp (measurable_dirOf.comp (measurable_sub3' (measurable_snd.comp measurable_fst) measurable_const))
  have h1 : Measurable fun q : Spot × V3 ℝ => ((q.1, q.2, -dirOf (q.1.2 - cam.position)) : Spot × V3 ℝ × V3 ℝ) := measurable_fst.prodMk (measurable_snd.prodMk hd)
  have h2 := (h.measurable_kernel i .LE).comp h1
  exact (h.measurable_importance hH hP).mul h2

/-! ### The walk -/

/-- Light in a scene. -/
noncomputable def lightOptics (W : World) (Q : Query) (i : Fin 3) (comps : SI → V3 ℝ → Finset ℕ) : Optics := ⟨Q.isect, emitted W i, comps, scatterBy W i .LE⟩

theorem Matte.onward (h : Matte W Q n cam Fs vertex m C f) (i : Fin 3) {comps : SI → V3 ℝ → Finset ℕ} (hcomp : ∀ j ∈ Fs.map (·.1), ∀ p wi, comps (vertex j p) wi = C j) {H : ℝ × ℝ → ℝ≥0∞} (hH : Measurable H)
    {P : V3 ℝ → ℝ} (hP : Measurable P) (k : ℕ) :
    (∀ j ∈ Fs.map (·.1), ∀ p wi, V3.dot wi wi = 1 → V3.dot wi (vertex j p).geom.n ≠ 0 → ∑ c ∈ C j, Transport.onward (lightOptics W Q i comps) (sensorAt W Q cam vertex f i H P) k (vertex j p) wi c =
      Adjoint.relay (fun x d => hitOf Q x.2 d) solidAngle (kernel vertex C f i .LE) (recorded W Q cam vertex C f i H P) k (j, p) wi) ∧
    ∀ sp j₀ d, V3.dot d d = 1 → ahead (lightOptics W Q i comps) (Transport.onward (lightOptics W Q i comps) (sensorAt W Q cam vertex f i H P) k) sp d =
      Adjoint.back (fun x d => hitOf Q x.2 d) (Adjoint.relay (fun x d => hitOf Q x.2 d) solidAngle (kernel vertex C f i .LE) (recorded W Q cam vertex C f i H P) k) (j₀, sp.geom.p) d := by
  have hrec := h.measurable_recorded i hH hP
  have hrm := fun k => (h.reversible i).relay hrec k
  have step : ∀ k, (∀ j ∈ Fs.map (·.1), ∀ p wi, V3.dot wi wi = 1 → V3.dot wi (vertex j p).geom.n ≠ 0 → ∑ c ∈ C j, Transport.onward (lightOptics W Q i comps) (sensorAt W Q cam vertex f i H P) k (vertex j p) wi c =
      Adjoint.relay (fun x d => hitOf Q x.2 d) solidAngle (kernel vertex C f i .LE) (recorded W Q cam vertex C f i H P) k (j, p) wi) →
      ∀ sp j₀ d, V3.dot d d = 1 → ahead (lightOptics W Q i comps) (Transport.onward (lightOptics W Q i comps) (sensorAt W Q cam vertex f i H P) k) sp d =
      Adjoint.back (fun x d => hitOf Q x.2 d) (Adjoint.relay (fun x d => hitOf Q x.2 d) solidAngle (kernel vertex C f i .LE) (recorded W Q cam vertex C f i H P) k) (j₀, sp.geom.p) d := by
    intro k hk sp j₀ d hd
    unfold ahead
    have ei : (lightOptics W Q i comps).isect = Q.isect := rfl
    rw [ei]
    cases hi : Q.isect sp.geom.p d with
    | none =>
      have ho : hitOf Q sp.geom.p d = none := by simp [hitOf, hi]
      exact (back_none (hit := fun x d => hitOf Q x.2 d) (x := (j₀, sp.geom.p)) ho _).symm
    | some hit =>
      have ho : hitOf Q sp.geom.p d = some (hit.primitive, hit.geom.p) := by simp [hitOf, hi]
      refine Eq.trans ?_ (back_some (hit := fun x d => hitOf Q x.2 d) (x := (j₀, sp.geom.p)) ho _).symm
      dsimp only
      obtain ⟨hj, hgr⟩ := h.face _ _ _ hd hi
      have hs := h.faceted.same _ _ _ hd hi
      have hdn : V3.dot (-d) (-d) = 1 := by simpa [V3.dot] using hd
      have hgn : V3.dot (-d) (vertex hit.primitive hit.geom.p).geom.n ≠ 0 := by
        rw [← hs, V3.dot_comm, V3.dot_neg_right, V3.dot_comm]; exact neg_ne_zero.mpr hgr
      rw [← hk _ hj _ _ hdn hgn]
      have hinf : hit.geom.infinite = false := by rw [hs]; exact (h.faceted.at_point _ _).2.2.1
      have hcc : (lightOptics W Q i comps).comps hit (-d) = C hit.primitive := by
        show comps hit (-d) = _
        rw [hs]
        have := hcomp _ hj hit.geom.p (-d)
        rw [this]
        exact congrArg C (h.faceted.at_point _ _).1.symm
      rw [hinf, hcc, ← hs]
      rfl
  have all : ∀ j ∈ Fs.map (·.1), ∀ p wi, V3.dot wi wi = 1 → V3.dot wi (vertex j p).geom.n ≠ 0 → ∑ c ∈ C j, Transport.onward (lightOptics W Q i comps) (sensorAt W Q cam vertex f i H P) k (vertex j p) wi c =
      Adjoint.relay (fun x d => hitOf Q x.2 d) solidAngle (kernel vertex C f i .LE) (recorded W Q cam vertex C f i H P) k (j, p) wi := by
    induction k with
    | zero => intros; simp [Transport.onward, Adjoint.relay]
    | succ k ih =>
      intro j hj p wi hwi hg
      obtain ⟨hpr, hpp, _, _⟩ := h.faceted.at_point j p
      show ∑ c ∈ C j, (sensorAt W Q cam vertex f i H P (vertex j p) wi c + ∫⁻ d, ahead (lightOptics W Q i comps) (Transport.onward (lightOptics W Q i comps) (sensorAt W Q cam vertex f i H P) k) (vertex j p) d ∂scatterBy W i .LE (vertex j p) wi c) =
        recorded W Q cam vertex C f i H P (j, p) wi + Adjoint.scat solidAngle (kernel vertex C f i .LE) (Adjoint.back (fun x d => hitOf Q x.2 d) (Adjoint.relay (fun x d => hitOf Q x.2 d) solidAngle (kernel vertex C f i .LE) (recorded W Q cam vertex C f i H P) k)) (j, p) wi
      rw [Finset.sum_add_distrib]
      congr 1
      · unfold recorded kernel
        rw [Finset.mul_sum]
        refine Finset.sum_congr rfl fun c _ => ?_
        unfold sensorAt
        rw [hpr, hpp]
      · rw [h.scat_kernel i .LE ((h.reversible i).back _ (hrm k))]
        refine Finset.sum_congr rfl fun c hc => ?_
        rw [h.scatter i .LE hj hc p hwi hg, lintegral_withDensity_eq_lintegral_mul_non_measurable _ (h.measurable_kern_from i .LE c (j, p) wi) (Filter.Eventually.of_forall fun d => kern_lt_top _ _ _ _ _ _ _ _)]
        refine lintegral_congr_ae (solidAngle_unit.mono fun d hd => ?_)
        beta_reduce
        have := step k ih (vertex j p) j d hd
        rw [hpp] at this
        rw [Pi.mul_apply, this]
  exact ⟨all, step k all⟩

/-- The scene is fit for light tracing. -/
theorem Matte.sound (h : Matte W Q n cam Fs vertex m C f) (i : Fin 3) {comps : SI → V3 ℝ → Finset ℕ} (hcomp : ∀ j ∈ Fs.map (·.1), ∀ p wi, comps (vertex j p) wi = C j) {H : ℝ × ℝ → ℝ≥0∞} (hH : Measurable H)
    {P : V3 ℝ → ℝ} (hPm : Measurable P) (hP : ∀ d, camPdfDirection cam d = some (P d)) (hP0 : ∀ d, 0 ≤ P d) :
    SoundLight W Q (lightOptics W Q i comps) i H (sensorAt W Q cam vertex f i H P) (Arrived W Q n cam vertex) where
  isect := rfl
  unbiased sp wi hg c hc L hL := by
    obtain ⟨j, p, rfl, hj, hwi, hgr, _⟩ := h.arrived hg
    have hc : c ∈ C j := by rw [← hcomp j hj p wi]; exact hc
    exact h.unbiased i .LE hj hc p hwi hgr L hL
  next sp wi hg c hc := by
    obtain ⟨j, p, rfl, hj, hwi, hgr, _⟩ := h.arrived hg
    have hc : c ∈ C j := by rw [← hcomp j hj p wi]; exact hc
    refine (h.direction .LE hj hc p hwi hgr).mono fun u hu => ⟨hu.1, fun wo K e => ⟨(hu.2 wo K e).1, (hu.2 wo K e).2.1, fun hit hi _ => ?_⟩⟩
    rw [(h.faceted.at_point j p).2.1] at hi
    exact (hu.2 wo K e).2.2 hit hi
  unit sp wi hg c hc := by
    refine (withDensity_absolutelyContinuous (solidAngleAt sp.geom) _).ae_le ?_
    exact solidAngleAt_unit sp.geom
  select sp wi hg := by
    obtain ⟨j, p, rfl, hj, hwi, hgr, _⟩ := h.arrived hg
    obtain ⟨hk, _, hm⟩ := h.surface j hj p
    have hok := (h.material j hj p wi hwi hgr).1
    have : ∀ u, sampleComponent W u (vertex j p) wi = (m j).sampleComponent u (vertex j p).geom wi := fun u => by simp only [sampleComponent, hk, (h.faceted.at_point j p).1, hm, Option.bind_some]
    have hcc : (lightOptics W Q i comps).comps (vertex j p) wi = C j := hcomp j hj p wi
    rw [hcc]
    simp_rw [this]
    exact ⟨hok.pick, hok.sum⟩
  measurable k sp wi _ := by
    refine ⟨_, ?_, fun d hd => (h.onward i hcomp hH hPm k).2 sp 0 d hd⟩
    have hb := (h.reversible i).back _ ((h.reversible i).relay (h.measurable_recorded i hH hPm) k)
    have e : Measurable fun d : V3 ℝ => (((0, sp.geom.p), d) : Spot × V3 ℝ) := measurable_const.prodMk measurable_id
    exact hb.comp e
  sensor nv st r hg hc hthr := by
    obtain ⟨j, p, e, hj, hwi, hgr, hcl⟩ := h.arrived hg
    obtain ⟨sp, c, wi, thr, rp⟩ := st
    dsimp only at e hwi hgr hc hthr ⊢
    subst e
    have hc : c ∈ C j := by rw [← hcomp j hj p wi]; exact hc
    exact h.sensor i H hP hP0 nv hj hc p hwi hgr hcl thr hthr rp r

end LM.Transport
