import Verif.Model.Bidir
import Verif.Props.C46_Path
import Mathlib.Tactic.FieldSimp
import Mathlib.Tactic.Ring
import Mathlib.Tactic.Linarith
import Mathlib.Tactic.LinearCombination
/-
  C49: sampling weight times path density equals the measurement contribution, for paths of any length and every strategy.
-/
namespace LM.Path
open LM LM.Surface LM.Material LM.Light LM.Volume

theorem bind_some {α β : Type} {o : Option α} {f : α → Option β} {b : β} (h : (o >>= f) = some b) : ∃ a, o = some a ∧ f a = some b := by
  cases o with
  | none => simp at h
  | some a => exact ⟨a, rfl, h⟩

theorem divV_of_ne {f : V3 ℝ} {p : ℝ} (hp : p ≠ 0) : divV f p = some ((1 / p) • f) := by simp [divV, hp]

/-- Once zero, the product of contributions stays zero. -/
theorem contrbLoop_zero (W : World) (vs : List Vert) (dir : TransDir) (k : ℕ) : ∀ (i : Int) (f : V3 ℝ), contrbLoop W vs dir k i 0 = some f → f = 0 := by
  induction k with
  | zero => intro i f h; simp [contrbLoop] at h; exact h.symm
  | succ k ih =>
    intro i f h
    rw [contrbLoop] at h
    obtain ⟨v, hv, h⟩ := bind_some h
    obtain ⟨vn, hvn, h⟩ := bind_some h
    obtain ⟨wi, hwi, h⟩ := bind_some h
    obtain ⟨wo, hwo, h⟩ := bind_some h
    obtain ⟨fl, hfl, h⟩ := bind_some h
    obtain ⟨G, hG, h⟩ := bind_some h
    have : G • ((0 : V3 ℝ) * fl) = 0 := by ext <;> simp
    rw [this] at h
    exact ih _ _ h

/-- The density loop ends at 0 if it starts there. -/
theorem pdfLoop_zero (W : World) (vs : List Vert) (dir : TransDir) (k : ℕ) : ∀ (i : Int) (p : ℝ), pdfLoop W vs dir k i 0 = some p → p = 0 := by
  induction k with
  | zero => intro i f h; simp [pdfLoop] at h; exact h.symm
  | succ k ih =>
    intro i f h
    rw [pdfLoop] at h
    obtain ⟨v, hv, h⟩ := bind_some h
    obtain ⟨vn, hvn, h⟩ := bind_some h
    obtain ⟨wi, hwi, h⟩ := bind_some h
    obtain ⟨wo, hwo, h⟩ := bind_some h
    obtain ⟨pc, hpc, h⟩ := bind_some h
    obtain ⟨pd, hpd, h⟩ := bind_some h
    obtain ⟨pa, hpa, h⟩ := bind_some h
    rw [zero_mul] at h
    exact ih _ _ h

theorem loops (W : World) (vs : List Vert) (dir : TransDir) (k : ℕ) : ∀ (i : Int) (p0 p : ℝ) (f0 f a0 : V3 ℝ),
    pdfLoop W vs dir k i p0 = some p → p ≠ 0 → contrbLoop W vs dir k i f0 = some f → p0 • a0 = f0 →
    ∃ a, alphaLoop W vs dir k i a0 = some a ∧ p • a = f := by
  induction k with
  | zero =>
    intro i p0 p f0 f a0 hp hne hf h0
    simp [pdfLoop] at hp
    simp [contrbLoop] at hf
    subst hp; subst hf
    exact ⟨a0, rfl, h0⟩
  | succ k ih =>
    intro i p0 p f0 f a0 hp hne hf h0
    rw [pdfLoop] at hp
    obtain ⟨v, hv, hp⟩ := bind_some hp
    obtain ⟨vn, hvn, hp⟩ := bind_some hp
    obtain ⟨wi, hwi, hp⟩ := bind_some hp
    obtain ⟨wo, hwo, hp⟩ := bind_some hp
    obtain ⟨pc, hpc, hp⟩ := bind_some hp
    obtain ⟨pd, hpd, hp⟩ := bind_some hp
    obtain ⟨pa, hpa, hp⟩ := bind_some hp
    rw [contrbLoop] at hf
    simp only [hv, hvn, hwi, hwo, Option.bind_eq_bind, Option.bind_some] at hf
    obtain ⟨fl, hfl, hf⟩ := bind_some hf
    obtain ⟨G, hG, hf⟩ := bind_some hf
    simp only [convertToArea, hG, Option.map_some, Option.some.injEq] at hpa
    have hp0 : p0 * (pc * pa) ≠ 0 := by
      intro h
      rw [h] at hp
      exact hne (pdfLoop_zero _ _ _ _ _ _ hp)
    have hpcn : pc ≠ 0 := by intro h; apply hp0; rw [h]; ring
    have hpan : pa ≠ 0 := by intro h; apply hp0; rw [h]; ring
    have hpdn : pd ≠ 0 := by intro h; apply hpan; rw [← hpa, h]; ring
    rw [alphaLoop]
    simp only [hv, hvn, hwi, hwo, hfl, Option.bind_eq_bind, Option.bind_some]
    by_cases hz : fl = 0
    · rw [if_pos hz]
      refine ⟨0, rfl, ?_⟩
      have e : G • (f0 * fl) = 0 := by rw [hz]; ext <;> simp
      rw [e] at hf
      rw [contrbLoop_zero _ _ _ _ _ _ hf]
      ext <;> simp
    · rw [if_neg hz]
      simp only [hpc, hpd, divV_of_ne hpdn, divV_of_ne hpcn, Option.bind_some]
      refine ih _ _ _ _ _ _ hp hne hf ?_
      rw [← h0, ← hpa]
      ext <;> simp <;> field_simp

/-- One subpath: its weight is defined, and weight times density is its contribution, unless the strategy starts with a single unconnectable vertex. -/
theorem subpath (W : World) (vs : List Vert) (l : ℕ) (dir : TransDir) (p : ℝ) (f : V3 ℝ)
    (hp : subpathPdf W vs l dir = some p) (hne : p ≠ 0) (hf : subpathContrb W vs l dir = some f)
    (h1 : l = 1 → ∀ v0, vertexAt vs 0 dir = some v0 → isConnectableEndpoint W v0.sp ≠ some false) :
    ∃ a, subpathWeight W vs l dir = some a ∧ p • a = f := by
  rw [subpathPdf] at hp
  rw [subpathContrb] at hf
  rw [subpathWeight]
  by_cases hl : l = 0
  · rw [if_pos hl] at hp hf ⊢
    simp at hp hf
    refine ⟨_, rfl, ?_⟩
    rw [← hp, ← hf]; ext <;> simp
  rw [if_neg hl] at hp hf ⊢
  obtain ⟨v0, hv0, hp⟩ := bind_some hp
  obtain ⟨conn, hc, hp⟩ := bind_some hp
  simp only [hv0, hc, Option.bind_eq_bind, Option.bind_some]
  cases conn with
  | true =>
    rw [if_pos rfl] at hp ⊢
    obtain ⟨pA, hpA, hp⟩ := bind_some hp
    obtain ⟨pc, hpc, hp⟩ := bind_some hp
    have hn : pA * pc ≠ 0 := by
      intro h
      rw [h] at hp
      exact hne (pdfLoop_zero _ _ _ _ _ _ hp)
    simp only [hpA, hpc, divV_of_ne hn, Option.bind_some]
    refine loops _ _ _ _ _ _ _ _ _ _ hp hne hf ?_
    have h1 : pA ≠ 0 := by intro h; apply hn; rw [h]; ring
    have h2 : pc ≠ 0 := by intro h; apply hn; rw [h]; ring
    ext <;> simp [V3.all] <;> field_simp
  | false =>
    have hl1 : l ≠ 1 := fun h => h1 h v0 hv0 hc
    rw [if_neg (by simp), if_neg hl1]
    rw [if_neg (by simp)] at hp
    obtain ⟨v1, hv1, hp⟩ := bind_some hp
    obtain ⟨d, hd, hp⟩ := bind_some hp
    obtain ⟨pr, hpr, hp⟩ := bind_some hp
    obtain ⟨pc0, hpc0, hp⟩ := bind_some hp
    obtain ⟨pc1, hpc1, hp⟩ := bind_some hp
    obtain ⟨pa, hpa, hp⟩ := bind_some hp
    obtain ⟨k, rfl⟩ : ∃ k, l = k + 2 := ⟨l - 2, by omega⟩
    have e1 : k + 2 - 1 = k + 1 := by omega
    have e2 : k + 2 - 2 = k := by omega
    rw [e1, contrbLoop] at hf
    rw [e2] at hp ⊢
    have hprev : direction (some v0) (vertexAt vs (0 - 1) dir) = some 0 := by
      have : vertexAt vs (0 - 1) dir = none := by simp [vertexAt]
      rw [this]; rfl
    simp only [hv0, zero_add, hv1, hprev, hd, Option.bind_eq_bind, Option.bind_some] at hf
    obtain ⟨fl, hfl, hf⟩ := bind_some hf
    obtain ⟨G, hG, hf⟩ := bind_some hf
    simp only [convertToArea, hG, Option.map_some, Option.some.injEq] at hpa
    have hn : pa * pc0 * pc1 ≠ 0 := by
      intro h
      rw [h] at hp
      exact hne (pdfLoop_zero _ _ _ _ _ _ hp)
    simp only [hv1, hd, hfl, Option.bind_some]
    by_cases hz : fl = 0
    · rw [if_pos hz]
      refine ⟨0, rfl, ?_⟩
      have e : G • (V3.all 1 * fl) = 0 := by rw [hz]; ext <;> simp
      rw [e] at hf
      rw [contrbLoop_zero _ _ _ _ _ _ hf]
      ext <;> simp
    · rw [if_neg hz]
      have hm : pr * pc0 * pc1 ≠ 0 := by
        intro h; apply hn; rw [← hpa]; linear_combination G * h
      simp only [hpc0, hpc1, hpr, divV_of_ne hm, Option.bind_some]
      refine loops _ _ _ _ _ _ _ _ _ _ hp hne hf ?_
      have h1 : pr ≠ 0 := by intro h; apply hm; rw [h]; ring
      have h2 : pc0 ≠ 0 := by intro h; apply hm; rw [h]; ring
      have h3 : pc1 ≠ 0 := by intro h; apply hm; rw [h]; ring
      rw [← hpa]
      ext <;> simp [V3.all] <;> field_simp

/-- C49: for every path, every strategy s with s ≤ number of vertices, whenever the bidirectional density is defined and not zero and the measurement contribution is defined, the sampling weight is defined and the weight times the density is the measurement contribution. -/
theorem C49_weight (W : World) (vs : List Vert) (s : ℕ) (hs : s ≤ vs.length) (p : ℝ) (f : V3 ℝ)
    (hp : pdfBidir W vs s = some p) (hne : p ≠ 0) (hf : measurementContrb W vs s = some f) :
    ∃ C, samplingWeight W vs s = some C ∧ p • C = f := by
  rw [pdfBidir] at hp
  obtain ⟨ok, hok, hp⟩ := bind_some hp
  cases ok with
  | false => simp at hp; exact absurd hp.symm hne
  | true =>
  rw [if_neg (by simp)] at hp
  obtain ⟨pL, hpL, hp⟩ := bind_some hp
  obtain ⟨pE, hpE, hp⟩ := bind_some hp
  simp at hp
  have hLn : pL ≠ 0 := by intro h; apply hne; rw [← hp, h]; ring
  have hEn : pE ≠ 0 := by intro h; apply hne; rw [← hp, h]; ring
  rw [measurementContrb] at hf
  obtain ⟨fL, hfL, hf⟩ := bind_some hf
  obtain ⟨fE, hfE, hf⟩ := bind_some hf
  obtain ⟨c, hc, hf⟩ := bind_some hf
  simp at hf
  have sL : s = 1 → ∀ v0, vertexAt vs 0 .LE = some v0 → isConnectableEndpoint W v0.sp ≠ some false := by
    intro h1 v0 hv0 hcon
    subst h1
    rw [isSamplable] at hok
    by_cases ht : (vs.length : Int) - 1 = 0
    · -- a path of one vertex: the density reads the missing second vertex
      rw [subpathPdf] at hpL
      simp only [one_ne_zero, if_false, hv0, hcon, Option.bind_eq_bind, Option.bind_some] at hpL
      have : vertexAt vs 1 .LE = none := by simp [vertexAt]; omega
      simp [this] at hpL
    · simp [ht, hv0, hcon] at hok
      cases hv : vertexAt vs (↑vs.length - 1 - 1) .EL with
      | none => simp [hv] at hok
      | some v => simp [hv] at hok
  have sE : vs.length - s = 1 → ∀ v0, vertexAt vs 0 .EL = some v0 → isConnectableEndpoint W v0.sp ≠ some false := by
    intro h1 v0 hv0 hcon
    rw [isSamplable] at hok
    by_cases h0 : s = 0
    · have hlen : vs.length = 1 := by omega
      rw [subpathPdf] at hpE
      rw [h1] at hpE
      simp only [one_ne_zero, if_false, hv0, hcon, Option.bind_eq_bind, Option.bind_some] at hpE
      have : vertexAt vs 1 .EL = none := by simp [vertexAt, hlen]
      simp [this] at hpE
    · have ht : (vs.length : Int) - s = 1 := by omega
      simp only [h0, ht, if_false, one_ne_zero, sub_self, hv0, Option.bind_eq_bind] at hok
      obtain ⟨vL, hvL, h⟩ := bind_some hok
      by_cases hs1 : s = 1
      · cases hcL : isConnectableEndpoint W vL.sp with
        | none => simp [hs1, hcL] at h
        | some b => cases b <;> simp [hs1, hcL, hcon] at h
      · simp [hs1, hcon] at h
  obtain ⟨aL, haL, eL⟩ := subpath W vs s .LE pL fL hpL hLn hfL sL
  obtain ⟨aE, haE, eE⟩ := subpath W vs (vs.length - s) .EL pE fE hpE hEn hfE sE
  rw [samplingWeight]
  simp only [haL, haE, hc, Option.bind_eq_bind, Option.bind_some]
  rw [← hf, ← hp, ← eL, ← eE]
  by_cases z1 : aL = 0
  · rw [if_pos z1]
    refine ⟨0, rfl, ?_⟩
    rw [z1]; ext <;> simp
  rw [if_neg z1]
  by_cases z2 : aE = 0
  · rw [if_pos z2]
    refine ⟨0, rfl, ?_⟩
    rw [z2]; ext <;> simp
  rw [if_neg z2]
  refine ⟨_, rfl, ?_⟩
  ext <;> simp <;> ring

/-! ### Non-vacuity: a point light, a diffuse surface and the camera on a line -/

noncomputable def exLineOps : List (Scene.Op (Aff ℝ)) :=
  [.createPrimitive ⟨none, none, some 0, none, none⟩, .createPrimitive ⟨some 0, some 0, none, none, none⟩, .createPrimitive ⟨none, none, none, some 0, none⟩,
    .addChild 0 1, .addChild 0 2, .addChild 0 3]
noncomputable def exLine : World where
  st := Scene.buildLights (Scene.run (fun _ => false) Scene.reset exLineOps) [(0, 1), (1, 1), (2, 1), (3, 1)]
  light _ := point (V3.all 1) ⟨0, 0, -1⟩ 0
  material _ := diffuse (fun _ => V3.all 1)
  phase _ := isotropic
  camera _ := exCam
  junk := 0
noncomputable def exL : Vert := ⟨⟨.light, 1, makeDegenerated ⟨0, 0, -1⟩ 0⟩, 0⟩
noncomputable def exS : Vert := ⟨⟨.surface, 2, ⟨false, false, ⟨0, 0, -2⟩, ⟨0, 0, 1⟩, ⟨0, 0, 1⟩, 0, ⟨1, 0, 0⟩, ⟨0, 1, 0⟩⟩⟩, 0⟩
noncomputable def exE : Vert := ⟨⟨.camera, 3, makeDegenerated 0 0⟩, 0⟩

noncomputable def exPath : List Vert := [exL, exS, exE]

theorem exDirLS : direction (some exL) (some exS) = some ⟨0, 0, -1⟩ := by
  simp [direction, exL, exS, makeDegenerated, Material.normalize, V3.dot]; norm_num; ext <;> simp <;> norm_num
theorem exDirSL : direction (some exS) (some exL) = some ⟨0, 0, 1⟩ := by
  simp [direction, exL, exS, makeDegenerated, Material.normalize, V3.dot]; norm_num; ext <;> simp <;> norm_num
theorem exDirSE : direction (some exS) (some exE) = some ⟨0, 0, 1⟩ := by
  simp [direction, exE, exS, makeDegenerated, Material.normalize, V3.dot]; ext <;> simp
theorem exDirES : direction (some exE) (some exS) = some ⟨0, 0, -1⟩ := by
  simp [direction, exE, exS, makeDegenerated, Material.normalize, V3.dot]; ext <;> simp
theorem exGLS : geometryTerm exL.sp.geom exS.sp.geom = some 1 := by
  simp [geometryTerm, exL, exS, makeDegenerated, V3.dot]; norm_num
theorem exGSE : geometryTerm exS.sp.geom exE.sp.geom = some (1 / 4) := by
  simp [geometryTerm, exE, exS, makeDegenerated, V3.dot]; norm_num
theorem exMat : exLine.materialAt 2 = some (diffuse (fun _ => V3.all 1)) := rfl
theorem exLi : exLine.lightAt 1 = some (point (V3.all 1) ⟨0, 0, -1⟩ 0) := rfl
theorem exCa : exLine.cameraAt 3 = some exCam := rfl
theorem exV (i : ℕ) (hi : i < 3) : vertexAt exPath i .LE = exPath[i]? ∧ vertexAt exPath i .EL = exPath[2 - i]? := by
  interval_cases i <;> exact ⟨rfl, rfl⟩
theorem exPosL : pdfPosition exLine exL.sp = some 1 := by
  have : pdfPosition exLine exL.sp = some ((1 / ((1 : ℕ) : ℝ)) * 1) := rfl
  rw [this]; norm_num
theorem exDen : pdfBidir exLine exPath 2 = some pdfSphere := by
  have h1 : isSamplable exLine exPath 2 = some true := by
    rfl
  have h2 : subpathPdf exLine exPath 2 .LE = some pdfSphere := by
    have e0 : vertexAt exPath 0 .LE = some exL := rfl
    have e1 : vertexAt exPath 1 .LE = some exS := rfl
    have em : direction (some exL) (vertexAt exPath (-1) .LE) = some 0 := rfl
    have ec : isConnectableEndpoint exLine exL.sp = some true := rfl
    have ep : pdfComponent exLine exL.sp 0 exL.comp = some 1 := rfl
    have ep2 : ∀ w, pdfComponent exLine exS.sp w exS.comp = some 1 := fun _ => rfl
    have ed : pdfDirection exLine exL.sp 0 ⟨0, 0, -1⟩ exL.comp false = some pdfSphere := rfl
    simp [subpathPdf, pdfLoop, e0, e1, em, ec, ep, ep2, exPosL, exDirLS, ed, convertToArea, exGLS]
  have h3 : subpathPdf exLine exPath 1 .EL = some 1 := by
    have e0 : vertexAt exPath 0 .EL = some exE := rfl
    have ec : isConnectableEndpoint exLine exE.sp = some true := rfl
    have epp : pdfPosition exLine exE.sp = some 1 := rfl
    have ep : pdfComponent exLine exE.sp 0 exE.comp = some 1 := rfl
    simp [subpathPdf, pdfLoop, e0, ec, ep, epp]
  have hl : exPath.length - 2 = 1 := rfl
  simp [pdfBidir, h1, h2, hl, h3]

/-- The path light - surface - camera meets the hypotheses of C49 with two vertices from the light: its density is 1 / (4π) and its contribution 1 / (32π). -/
example : 2 ≤ exPath.length ∧ pdfBidir exLine exPath 2 = some (1 / (4 * Real.pi)) ∧ (1 / (4 * Real.pi)) ≠ 0 ∧
    measurementContrb exLine exPath 2 = some (V3.all (1 / (32 * Real.pi))) := by
  refine ⟨by decide, exDen, by have := Real.pi_pos; positivity, ?_⟩
  have e0 : vertexAt exPath 0 .LE = some exL := rfl
  have e1 : vertexAt exPath 1 .LE = some exS := rfl
  have em : direction (some exL) (vertexAt exPath (-1) .LE) = some 0 := rfl
  have hE : subpathContrb exLine exPath 1 .EL = some (V3.all 1) := rfl
  have fL : evalContrbDirection exLine exL.sp 0 ⟨0, 0, -1⟩ exL.comp .LE false = some (V3.all 1) := rfl
  have hL : subpathContrb exLine exPath 2 .LE = some (V3.all 1) := by
    simp [subpathContrb, contrbLoop, e0, e1, em, exDirLS, fL, exGLS]
    ext <;> simp [V3.all]
  have fS : evalContrbDirection exLine exS.sp ⟨0, 0, 1⟩ ⟨0, 0, 1⟩ exS.comp .LE true = some (V3.all (1 / Real.pi)) := by
    have : exLine.materialAt exS.sp.primitive = some (diffuse (fun _ => V3.all 1)) := rfl
    have hk : exS.sp.kind = .surface := rfl
    simp only [evalContrbDirection, hk, this, Option.bind_some]
    simp [diffuse, exS, opposite, shadingNormalCorrection, V3.dot, toLocal, LM.MathF.localCos, V3.all]
    rw [if_neg (by norm_num), if_neg (by norm_num)]
    ext <;> simp
  have fE : evalContrbDirection exLine exE.sp 0 ⟨0, 0, -1⟩ exE.comp .EL true = some (V3.all (1 / 8)) := by
    have : exLine.cameraAt exE.sp.primitive = some exCam := rfl
    have hk : exE.sp.kind = .camera := rfl
    simp only [evalContrbDirection, hk, this]
    simp [camEval, rasterPosition, camJ, toEye, exCam, V3.dot, divF]; norm_num
  have hc : connectionTerm exLine exPath 2 = some (V3.all (1 / (32 * Real.pi))) := by
    have ht : ((exPath.length : ℕ) : Int) - (2 : ℕ) = 1 := rfl
    have a1 : vertexAt exPath (((2 : ℕ) : Int) - 1) .LE = some exS := rfl
    have a2 : vertexAt exPath (1 - 1) .EL = some exE := rfl
    have a3 : vertexAt exPath (((2 : ℕ) : Int) - 2) .LE = some exL := rfl
    have a4 : direction (some exE) (vertexAt exPath (1 - 2) .EL) = some 0 := rfl
    rw [connectionTerm]
    simp only [ht, a1, a2, a3, a4, Option.bind_eq_bind, Option.bind_some, exDirSL, exDirSE, exDirES, fS, fE, exGSE]
    simp
    ext <;> simp [V3.all] <;> field_simp <;> norm_num
  have hl : exPath.length - 2 = 1 := rfl
  simp [measurementContrb, hL, hl, hE, hc]
  ext <;> simp [V3.all]

end LM.Path
