import Verif.Props.C82_Material
/-
  C82: scenes. The scattering of surfaces and of the camera, and what is required of intersections and lights.
-/
namespace LM.Transport
open MeasureTheory LM LM.Surface LM.Material LM.Light LM.MathF LM.Path LM.Render LM.Solid
open scoped ENNReal

/-- One channel of the scattering at a vertex: for a BSDF, its value times (projected) solid angle; for a specular component, its value at the one direction into which it scatters. -/
noncomputable def scattered (W : World) (i : Fin 3) (sp : SI) (wi : V3 ℝ) (c : ℕ) : Measure (V3 ℝ) :=
  match isSpecularComponent W sp c with
  | some false => (solidAngleAt sp.geom).withDensity fun d => Solid.value i (evalContrbDirection W sp wi d c .EL false)
  | _ => match sampleDirection W ⟨0, 0, 0⟩ sp wi c .EL with
    | .ok wo _ => Solid.value i (evalContrbDirection W sp wi wo c .EL false) • Measure.dirac wo
    | _ => 0

/-- The optics of a scene; `comps` are the components of the materials. -/
noncomputable def optics (W : World) (Q : Query) (i : Fin 3) (comps : SI → V3 ℝ → Finset ℕ) : Optics := ⟨Q.isect, emitted W i, comps, scattered W i⟩

/-- The vertices of paths: the camera, and points of surfaces seen in some direction. -/
def Vertex (W : World) (Q : Query) (n : Int) (cam : Camera) (sp : SI) (wi : V3 ℝ) : Prop :=
  (sp = camVertex W n cam ∧ wi = 0) ∨ ∃ o d, V3.dot d d = 1 ∧ Q.isect o d = some sp ∧ sp.geom.infinite = false ∧ wi = -d

/-- What is required of a scene: rays hit surfaces with orthonormal frames, not at grazing angles, whose materials meet the requirements, or the environment. -/
structure Regular (W : World) (Q : Query) (n : Int) (cam : Camera) (comps : SI → V3 ℝ → Finset ℕ) : Prop where
  camera : W.cameraAt n = some cam
  proper : cam.Proper
  single : comps (camVertex W n cam) 0 = {0}
  surface : ∀ o d h, V3.dot d d = 1 → Q.isect o d = some h → h.geom.infinite = false → h.kind = .surface ∧ h.geom.degenerated = false ∧ OnSurface h.geom ∧ V3.dot d h.geom.n ≠ 0 ∧
    ∃ m, W.materialAt h.primitive = some m ∧ MatOk m h.geom (-d) (comps h (-d))
  infinite : ∀ o d h, V3.dot d d = 1 → Q.isect o d = some h → h.geom.infinite = true → h.kind = .light ∧ (W.prim h.primitive).isSome

/-! ### Shading normals -/

theorem snc_EL (g : Geom) (wi wo : V3 ℝ) : shadingNormalCorrection g wi wo .EL = 0 ∨ shadingNormalCorrection g wi wo .EL = 1 := by
  unfold shadingNormalCorrection
  dsimp only
  split
  · left; rfl
  · right; simp

theorem snc_nonneg (g : Geom) (wi wo : V3 ℝ) : 0 ≤ shadingNormalCorrection g wi wo .EL := by
  rcases snc_EL g wi wo with h | h <;> rw [h]
  exact zero_le_one

theorem measurable_snc (g : Geom) (wi : V3 ℝ) : Measurable fun d => shadingNormalCorrection g wi d .EL := by
  unfold shadingNormalCorrection
  simp only [reduceCtorEq, if_false]
  refine Measurable.ite ?_ measurable_const measurable_const
  have h1 : Measurable fun d : V3 ℝ => V3.dot d g.gn * localCos (toLocal g d) := (measurable_dotc g.gn).mul (by simp only [localCos, toLocal]; exact measurable_cdot _)
  exact (MeasurableSet.const _).union (measurableSet_le h1 measurable_const)

/-! ### The camera -/

theorem cam_defined {cam : Camera} (h : cam.Proper) (d : V3 ℝ) : ∃ P, camPdfDirection cam d = some P ∧ camEval cam d = some (V3.all P) ∧ 0 ≤ P := by
  cases hr : rasterPosition cam d with
  | none => exact ⟨0, by simp only [camPdfDirection, hr], by simp only [camEval, hr], le_rfl⟩
  | some r =>
    have hz : (toEye cam d).z < 0 := by
      by_contra hc
      unfold rasterPosition at hr
      simp only [ge_iff_le, not_lt.mp hc, if_true] at hr
      cases hr
    obtain ⟨_, ht, ha⟩ := h
    have h1 : -(toEye cam d).z ≠ 0 := by linarith
    have h2 : cam.tf * cam.tf * cam.aspect * 4 ≠ 0 := by positivity
    have e : camJ cam d = some (1 / -(toEye cam d).z * (1 / -(toEye cam d).z) * (1 / -(toEye cam d).z) / (cam.tf * cam.tf * cam.aspect * 4)) := by
      simp only [camJ, divF, h1, h2, if_false, Option.bind_eq_bind, Option.bind_some]
    have : 0 < -(toEye cam d).z := by linarith
    exact ⟨_, by simp only [camPdfDirection, hr]; exact e, by simp only [camEval, hr, e, Option.map_some], by positivity⟩

theorem cam_measurable {cam : Camera} (h : cam.Proper) : ∃ P : V3 ℝ → ℝ, Measurable P ∧ ∀ d, camPdfDirection cam d = some (P d) ∧ camEval cam d = some (V3.all (P d)) ∧ 0 ≤ P d := by
  choose P h1 h2 h3 using cam_defined h
  refine ⟨P, ?_, fun d => ⟨h1 d, h2 d, h3 d⟩⟩
  have e : P = fun d => (dens (camPdfDirection cam d)).toReal := by
    funext d
    rw [h1 d]
    simp only [dens]
    rw [ENNReal.toReal_ofReal (h3 d)]
  rw [e]
  have hm : Measurable fun d => dens (camPdfDirection cam d) := by
    simp_rw [camPdf_eye h.2.1 h.2.2]
    exact (Measurable.indicator (((((measurable_const.div measurable_z.neg).pow_const 3)).div_const _).ennreal_ofReal) (measurable_frustum cam)).comp (measurable_toEye cam)
  exact hm.ennreal_toReal

/-! ### Sound scenes -/

/-- Sampling a direction at a surface: the material's, corrected for the shading normal. -/
theorem sample_surface {W : World} {sp : SI} (hk : sp.kind = .surface) {m : Mat} (hm : W.materialAt sp.primitive = some m) (u : DirU) (wi : V3 ℝ) (c : ℕ) : sampleDirection W u sp wi c .EL =
    match m.sampleDirection u sp.geom wi c .EL with
    | .ok wo C => .ok wo (shadingNormalCorrection sp.geom wi wo .EL • C)
    | r => r := by
  simp only [sampleDirection, hk, hm]
  rfl

theorem worth_surface {W : World} {sp : SI} (hk : sp.kind = .surface) {m : Mat} (hm : W.materialAt sp.primitive = some m) (u : DirU) (wi : V3 ℝ) (c : ℕ) (i : Fin 3) (L : V3 ℝ → ℝ≥0∞) :
    worth i L (sampleDirection W u sp wi c .EL) = worth i (fun d => ENNReal.ofReal (shadingNormalCorrection sp.geom wi d .EL) * L d) (m.sampleDirection u sp.geom wi c .EL) := by
  rw [sample_surface hk hm]
  cases m.sampleDirection u sp.geom wi c .EL with
  | ok wo C =>
    simp only [worth, chan_smul, ENNReal.ofReal_mul (snc_nonneg _ _ _)]
    ring
  | fail => rfl
  | undef => rfl

theorem value_snc (k : ℝ) (hk : 0 ≤ k) (i : Fin 3) (f : V3 ℝ) : Solid.value i (some (k • f)) = ENNReal.ofReal k * Solid.value i (some f) := by
  simp only [Solid.value, chan_smul, ENNReal.ofReal_mul hk]

theorem smooth_unbiased {W : World} {sp : SI} (hk : sp.kind = .surface) (hdeg : sp.geom.degenerated = false) {m : Mat} (hm : W.materialAt sp.primitive = some m) {wi : V3 ℝ} {c : ℕ} (hs : Smooth m c sp.geom wi) (i : Fin 3)
    (L : V3 ℝ → ℝ≥0∞) (hL : Measurable L) : ∫⁻ u, worth i L (sampleDirection W ⟨u.1, u.2.1, u.2.2⟩ sp wi c .EL) ∂uniform3 = ∫⁻ d, L d ∂scattered W i sp wi c := by
  simp_rw [worth_surface hk hm]
  have hcor : Measurable fun d => ENNReal.ofReal (shadingNormalCorrection sp.geom wi d .EL) := (measurable_snc sp.geom wi).ennreal_ofReal
  have hcL : Measurable fun d => ENNReal.ofReal (shadingNormalCorrection sp.geom wi d .EL) * L d := hcor.mul hL
  have hub := hs.unbiased .EL i _ hcL
  beta_reduce at hub
  rw [hub]
  obtain ⟨F, hF, hFe⟩ := hs.eval
  have hspec : isSpecularComponent W sp c = some false := by simp only [isSpecularComponent, hk, hm, Option.bind_some, hs.kind]
  have hang : solidAngleAt sp.geom = projSolidAngle sp.geom.n := by simp [solidAngleAt, hdeg]
  have hval : ∀ d, V3.dot d d = 1 → Solid.value i (evalContrbDirection W sp wi d c .EL false) = ENNReal.ofReal (shadingNormalCorrection sp.geom wi d .EL) * ENNReal.ofReal (chan i (F d)) := fun d hd => by
    simp only [evalContrbDirection, hk, hm, Option.bind_some, (hFe d hd).2 false, Option.map_some]
    rw [value_snc _ (snc_nonneg _ _ _)]; rfl
  have hden : Measurable fun d => ENNReal.ofReal (shadingNormalCorrection sp.geom wi d .EL) * ENNReal.ofReal (chan i (F d)) := hcor.mul ((measurable_chan i).comp hF).ennreal_ofReal
  have e : scattered W i sp wi c = (projSolidAngle sp.geom.n).withDensity fun d => ENNReal.ofReal (shadingNormalCorrection sp.geom wi d .EL) * ENNReal.ofReal (chan i (F d)) := by
    unfold scattered
    rw [hspec, hang]
    exact withDensity_congr_ae ((projSA_unit sp.geom.n).mono fun d hd => hval d hd)
  rw [e, lintegral_withDensity_eq_lintegral_mul _ hden hL]
  refine lintegral_congr_ae ((projSA_unit sp.geom.n).mono fun d hd => ?_)
  beta_reduce
  rw [(hFe d hd).2 false]
  simp only [Solid.value, Pi.mul_apply]
  ring

theorem specular_sample {W : World} {sp : SI} (hk : sp.kind = .surface) {m : Mat} (hm : W.materialAt sp.primitive = some m) {wi : V3 ℝ} {c : ℕ} (hs : Specular m c sp.geom wi) :
    ∃ wo C, V3.dot wo wo = 1 ∧ NonNeg C ∧ (∀ us, sampleDirection W us sp wi c .EL = .ok wo C) ∧ evalContrbDirection W sp wi wo c .EL false = some C := by
  obtain ⟨wo, C, hu, hC, hsam, hev⟩ := hs.direction
  refine ⟨wo, shadingNormalCorrection sp.geom wi wo .EL • C, hu, nonneg_smul (snc_nonneg _ _ _) hC, fun us => ?_, ?_⟩
  · rw [sample_surface hk hm, hsam us]
  · simp only [evalContrbDirection, hk, hm, Option.bind_some, hev, Option.map_some]

theorem specular_unbiased {W : World} {sp : SI} (hk : sp.kind = .surface) {m : Mat} (hm : W.materialAt sp.primitive = some m) {wi : V3 ℝ} {c : ℕ} (hs : Specular m c sp.geom wi) (i : Fin 3)
    (L : V3 ℝ → ℝ≥0∞) (hL : Measurable L) : ∫⁻ u, worth i L (sampleDirection W ⟨u.1, u.2.1, u.2.2⟩ sp wi c .EL) ∂uniform3 = ∫⁻ d, L d ∂scattered W i sp wi c := by
  have hspec : isSpecularComponent W sp c = some true := by simp only [isSpecularComponent, hk, hm, Option.bind_some, hs.kind]
  obtain ⟨wo, C, _, _, hsam, hev⟩ := specular_sample hk hm hs
  simp_rw [hsam]
  simp only [worth]
  rw [int3_const]
  unfold scattered
  rw [hspec]
  dsimp only
  rw [hsam]
  dsimp only
  rw [hev, lintegral_smul_measure, lintegral_dirac' _ hL]
  rfl

theorem camera_unbiased {W : World} {n : Int} {cam : Camera} (hc : W.cameraAt n = some cam) (hp : cam.Proper) (i : Fin 3) (L : V3 ℝ → ℝ≥0∞) (hL : Measurable L) :
    ∫⁻ u, worth i L (sampleDirection W ⟨u.1, u.2.1, u.2.2⟩ (camVertex W n cam) 0 0 .EL) ∂uniform3 = ∫⁻ d, L d ∂scattered W i (camVertex W n cam) 0 0 := by
  obtain ⟨P, hP, hPe⟩ := cam_measurable hp
  have hval : ∀ d, Solid.value i (evalContrbDirection W (camVertex W n cam) 0 d 0 .EL false) = ENNReal.ofReal (P d) := fun d => by
    simp only [evalContrbDirection, camVertex, hc, (hPe d).2.1]
    fin_cases i <;> rfl
  have hsc : scattered W i (camVertex W n cam) 0 0 = solidAngle.withDensity fun d => ENNReal.ofReal (P d) := by
    have e : solidAngleAt (camVertex W n cam).geom = solidAngle := by simp [solidAngleAt, camVertex, makeDegenerated]
    unfold scattered
    simp only [isSpecularComponent, camVertex] at hval e ⊢
    rw [e]
    simp_rw [hval]
  have h := C81_camera cam W.junk hp 0 0 0 i L hL
  rw [hsc, lintegral_withDensity_eq_lintegral_mul _ hP.ennreal_ofReal hL]
  have e2 : ∀ d, Solid.value i (camEval cam d) * L d = ((fun d => ENNReal.ofReal (P d)) * L) d := fun d => by
    rw [(hPe d).2.1]; fin_cases i <;> rfl
  simp_rw [e2] at h
  rw [← h]
  have hdir : ∀ q : ℝ × ℝ, ∃ d, primaryRay cam q.1 q.2 = some d := fun q => ⟨_, (C47_primary cam hp q.1 q.2).choose_spec.1⟩
  choose dir hdir using hdir
  have hone : chan i (V3.all (1 : ℝ)) = 1 := by fin_cases i <;> rfl
  have e3 : ∀ q : ℝ × ℝ, worthRay i (fun _ wo => L wo) (camSampleRay cam W.junk ⟨0, 0, 0, q.1, q.2⟩) = L (dir q) := fun q => by
    simp only [camSampleRay, hdir q, worthRay, hone, ENNReal.ofReal_one, one_mul]
  have e4 : ∀ u : ℝ × ℝ × ℝ, worth i L (sampleDirection W ⟨u.1, u.2.1, u.2.2⟩ (camVertex W n cam) 0 0 .EL) = L (dir (u.1, u.2.1)) := fun u => by
    have := hdir (u.1, u.2.1)
    dsimp only at this
    simp only [sampleDirection, camVertex, hc, this, worth, hone, ENNReal.ofReal_one, one_mul]
  simp_rw [e3, e4]
  exact (lintegral_map_equiv_first (fun q => L (dir q)) (hL.comp (measurable_dir hdir))).symm

theorem isLight_of {W : World} {sp : SI} (hk : sp.kind ≠ .medium) (hp : (W.prim sp.primitive).isSome) : isLight W sp = some (W.lightAt sp.primitive).isSome := by
  obtain ⟨p, hp⟩ := Option.isSome_iff_exists.mp hp
  unfold isLight World.lightAt
  rw [hp]
  cases hk' : sp.kind <;> simp_all

theorem Regular.isLight {W : World} {Q : Query} {n : Int} {cam : Camera} {comps} (h : Regular W Q n cam comps) (o d : V3 ℝ) (hit : SI) (hd : V3.dot d d = 1) (hi : Q.isect o d = some hit) :
    isLight W hit = some (W.lightAt hit.primitive).isSome := by
  cases hinf : hit.geom.infinite
  · obtain ⟨hk, _, _, _, m, hm, _⟩ := h.surface o d hit hd hi hinf
    refine isLight_of (by simp [hk]) ?_
    unfold World.materialAt at hm
    cases hp : W.prim hit.primitive with
    | none => rw [hp] at hm; simp at hm
    | some p => rfl
  · obtain ⟨hk, hp⟩ := h.infinite o d hit hd hi hinf
    exact isLight_of (by simp [hk]) hp

/-- Almost surely, the sampled direction at a vertex is a unit vector, its weight is not negative, and sampling is defined. -/
theorem Regular.direction {W : World} {Q : Query} {n : Int} {cam : Camera} {comps} (h : Regular W Q n cam comps) {sp : SI} {wi : V3 ℝ} (hv : Vertex W Q n cam sp wi) {c : ℕ} (hc : c ∈ comps sp wi) (u : DirU) (hu : u.Valid) :
    sampleDirection W u sp wi c .EL ≠ .undef ∧ ∀ wo C, sampleDirection W u sp wi c .EL = .ok wo C → NonNeg C ∧ V3.dot wo wo = 1 := by
  rcases hv with ⟨rfl, rfl⟩ | ⟨o, d, hd, hi, hinf, rfl⟩
  · obtain ⟨dd, e, hun, _⟩ := C47_primary cam h.proper u.ud0 u.ud1
    have : sampleDirection W u (camVertex W n cam) 0 c .EL = .ok dd (V3.all 1) := by simp only [sampleDirection, camVertex, h.camera, e]
    rw [this]
    refine ⟨by simp, fun wo C e => ?_⟩
    cases e
    exact ⟨⟨zero_le_one, zero_le_one, zero_le_one⟩, hun⟩
  · obtain ⟨hk, hdeg, hon, hgr, m, hm, hok⟩ := h.surface o d sp hd hi hinf
    rcases hok.comp c hc with hs | hs
    · have hest := hs.estimates u .EL hu
      rw [sample_surface hk hm]
      cases e : m.sampleDirection u sp.geom (-d) c .EL with
      | undef => rw [e] at hest; exact hest.elim
      | fail => exact ⟨by simp, fun wo C h => by cases h⟩
      | ok wo' C' =>
        rw [e] at hest
        obtain ⟨hun, p, f, ep, ef, hp, hC⟩ := hest
        obtain ⟨F, hF, hFe⟩ := hs.eval
        refine ⟨by simp, fun wo C e' => ?_⟩
        cases e'
        refine ⟨nonneg_smul (snc_nonneg _ _ _) ?_, hun⟩
        have hnf := (hFe _ hun).1
        rw [(hFe _ hun).2 false] at ef
        cases ef
        have : C' = (1 / p) • F wo' := by rw [← hC, smul_smul, one_div_mul_cancel hp.ne', one_smul]
        rw [this]
        exact nonneg_smul (by positivity) hnf
    · obtain ⟨wo', C', hun, hC, hsam, _⟩ := specular_sample hk hm hs
      rw [hsam]
      refine ⟨by simp, fun wo C e' => ?_⟩
      cases e'
      exact ⟨hC, hun⟩

/-- Components are selected without bias. -/
theorem Regular.select {W : World} {Q : Query} {n : Int} {cam : Camera} {comps} (h : Regular W Q n cam comps) {sp : SI} {wi : V3 ℝ} (hv : Vertex W Q n cam sp wi) :
    (∀ u, 0 ≤ u → u < 1 → ∃ c w, sampleComponent W u sp wi = some (c, w) ∧ c ∈ comps sp wi ∧ 0 ≤ w) ∧ ∀ F : ℕ → ℝ≥0∞, ∫⁻ u, compWorth F (sampleComponent W u sp wi) ∂uniform1 = ∑ c ∈ comps sp wi, F c := by
  rcases hv with ⟨rfl, rfl⟩ | ⟨o, d, hd, hi, hinf, rfl⟩
  · have hcs : comps (camVertex W n cam) 0 = {0} := h.single
    refine ⟨fun u _ _ => ⟨0, 1, rfl, by rw [hcs]; simp, zero_le_one⟩, fun F => ?_⟩
    rw [hcs]
    have : ∀ u, sampleComponent W u (camVertex W n cam) 0 = some (0, 1) := fun _ => rfl
    simp_rw [this]
    simp only [compWorth, ENNReal.ofReal_one, one_mul, Finset.sum_singleton]
    exact int1_const _
  · obtain ⟨hk, hdeg, hon, hgr, m, hm, hok⟩ := h.surface o d sp hd hi hinf
    have : ∀ u, sampleComponent W u sp (-d) = m.sampleComponent u sp.geom (-d) := fun u => by simp only [sampleComponent, hk, hm, Option.bind_some]
    simp_rw [this]
    exact ⟨hok.pick, hok.sum⟩

/-- A regular scene meets the requirements for path tracing without light sampling. -/
theorem Regular.sound {W : World} {Q : Query} {n : Int} {cam : Camera} {comps} (h : Regular W Q n cam comps) (i : Fin 3)
    (hmeas : ∀ k sp wi, Vertex W Q n cam sp wi → Measurable ((optics W Q i comps).incoming k sp)) : Sound W Q (optics W Q i comps) i (Vertex W Q n cam) where
  isect := rfl
  emit := rfl
  measurable := hmeas
  unbiased sp wi hv c hc L hL := by
    rcases hv with ⟨rfl, rfl⟩ | ⟨o, d, hd, hi, hinf, rfl⟩
    · have hc : c ∈ comps (camVertex W n cam) 0 := hc
      rw [h.single, Finset.mem_singleton] at hc
      subst hc
      exact camera_unbiased h.camera h.proper i L hL
    · obtain ⟨hk, hdeg, hon, hgr, m, hm, hok⟩ := h.surface o d sp hd hi hinf
      rcases hok.comp c hc with hs | hs
      · exact smooth_unbiased hk hdeg hm hs i L hL
      · exact specular_unbiased hk hm hs i L hL
  next sp wi hv c hc := by
    refine cube_ae.mono fun u hu => ?_
    obtain ⟨h1, h2⟩ := h.direction hv hc ⟨u.1, u.2.1, u.2.2⟩ ⟨hu.1, hu.2.1, hu.2.2⟩
    refine ⟨h1, fun wo C e => ⟨(h2 wo C e).1, fun hit hi => ⟨h.isLight _ _ hit (h2 wo C e).2 hi, fun hinf => .inr ⟨_, wo, (h2 wo C e).2, hi, hinf, rfl⟩⟩⟩⟩
  select sp wi hv := h.select hv

end LM.Transport
