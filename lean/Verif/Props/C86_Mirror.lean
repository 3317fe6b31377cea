import Verif.Props.C86_Example
import Verif.Props.C82_Example
/-
  C86: light tracing and specular surfaces. The light tracer reaches the film only by connecting a vertex of a light path to the camera, and the BSDF of a perfectly specular surface for such a connection is zero
  (renderer_lt.cpp:93-115 with eval_delta = true). A scene of specular surfaces is black, whatever its lights.
-/
namespace LM.Transport
open MeasureTheory LM LM.Surface LM.Material LM.Light LM.MathF LM.Path LM.Render LM.Solid Set
open scoped ENNReal

/-- The perfectly specular materials: mirrors, masks (which let all light through) and glass. -/
def Polished (m : Mat) : Prop := m = mirror ∨ m = mask ∨ ∃ Ni, m = glass Ni

theorem Polished.eval {m : Mat} (h : Polished m) (g : Geom) (wi wo : V3 ℝ) (c : ℕ) (dir : TransDir) : m.eval g wi wo c dir true = some 0 := by
  rcases h with rfl | rfl | ⟨Ni, rfl⟩
  · rfl
  · rfl
  · simp only [glass, glassEval]; rfl

variable {W : World} {Q : Query}

theorem polished_nee (hm : ∀ j m, W.materialAt j = some m → Polished m) {nv : ℕ} {st : St} {r : Rnd} (hk : st.sp.kind = .surface) {l : List Splat} (h : ltNee W Q nv st r = some l) : ∀ s ∈ l, s.C = 0 := by
  unfold ltNee at h
  split at h
  · cases h
  · cases h; simp
  · split at h
    · cases h; simp
    · simp only [Option.bind_eq_bind, Option.bind_eq_some_iff] at h
      obtain ⟨o, _, h⟩ := h
      split at h
      · cases h; simp
      · simp only [Option.pure_def, Option.bind_eq_some_iff] at h
        obtain ⟨f, hf, h⟩ := h
        cases Option.some.inj h
        unfold evalContrbDirection at hf
        rw [hk] at hf
        simp only [Option.bind_eq_some_iff] at hf
        obtain ⟨m, hmm, hf⟩ := hf
        rw [(hm _ _ hmm).eval] at hf
        cases hf
        intro s hs
        rw [List.mem_singleton.mp hs]
        beta_reduce
        ext <;> simp

theorem polished_walk (hm : ∀ j m, W.materialAt j = some m → Polished m) (hQ : ∀ o d h, Q.isect o d = some h → h.geom.infinite = false → h.kind = .surface) (rs : ℕ → Rnd) (k : ℕ) :
    ∀ nv st l, st.sp.kind = .surface → walk W (rouletteAt (2 / 10)) (ltBody W Q) rs k nv st = some l → ∀ s ∈ l, s.C = 0 := by
  induction k with
  | zero => intro nv st l _ h; cases h; simp
  | succ k ih =>
    intro nv st l hk h
    have hbody : ∀ a o, ltBody W Q nv st (rs nv) = some (a, o) → (∀ s ∈ a, s.C = 0) ∧ ∀ hp, o = some hp → ∃ p d, Q.isect p d = some hp.hit := by
      intro a o hb
      unfold ltBody at hb
      simp only [Option.bind_eq_bind, Option.bind_eq_some_iff] at hb
      obtain ⟨a', ha, hb⟩ := hb
      have hz := polished_nee hm hk ha
      split at hb
      · cases hb
      · cases hb; exact ⟨hz, nofun⟩
      · split at hb
        · cases hb; exact ⟨hz, nofun⟩
        · rename_i hit e
          cases hb
          refine ⟨hz, fun hp e' => ?_⟩
          cases e'
          exact ⟨_, _, e⟩
    unfold Render.walk at h
    split at h
    · cases h
    · rename_i out e
      cases h
      exact (hbody _ _ e).1
    · rename_i out hp e
      obtain ⟨hz, hh⟩ := hbody _ _ e
      obtain ⟨p, d, hi⟩ := hh hp rfl
      split at h
      · cases h
      · cases h; exact hz
      · rename_i st' ha
        simp only [Option.map_eq_some_iff] at h
        obtain ⟨rest, hr, rfl⟩ := h
        have hk' : st'.sp.kind = .surface := by
          unfold advance at ha
          split at ha
          · cases ha
          · rename_i hinf
            split at ha
            · cases ha
            · cases ha
            · simp only [Option.map_eq_some_iff] at ha
              obtain ⟨_, _, ha⟩ := ha
              cases ha
              exact hQ p d _ hi (by simpa using hinf)
        intro s hs
        rcases List.mem_append.mp hs with hs | hs
        · exact hz s hs
        · exact ih _ _ _ hk' hr s hs

/-- C86. Scenes of specular surfaces are black in the image of the light tracer: if every material is a mirror, a mask or glass, nothing that a sample adds to the film is different from zero, for all lights, all cameras, all
    random numbers and all lengths of paths. -/
theorem C86_specular_black (hm : ∀ j m, W.materialAt j = some m → Polished m) (hQ : ∀ o d h, Q.isect o d = some h → h.geom.infinite = false → h.kind = .surface) (N : ℕ) (u : RaySampleU) (uc : ℝ) (rs : ℕ → Rnd)
    (l : List Splat) (h : ltSample W Q N u uc rs = some l) : ∀ s ∈ l, s.C = 0 := by
  unfold ltSample at h
  split at h
  · split at h
    · cases h; simp
    · rename_i hit e
      split at h
      · cases h; simp
      · rename_i hinf
        simp only [Option.bind_eq_bind, Option.bind_eq_some_iff] at h
        obtain ⟨⟨comp, wc⟩, _, h⟩ := h
        exact polished_walk hm hQ rs _ _ _ _ (hQ _ _ _ e (by simpa using hinf)) h
  · cases h

/-! ### A mirror under the sky -/

/-- A floor that is a mirror, under a constant sky of radiance 1, seen from above. -/
noncomputable def exMirror : World := { exSky with material := fun _ => mirror }

open Classical in
/-- As `exFloorQ`; the camera is visible from the floor. -/
noncomputable def exMirrorQ : Query where
  isect := exFloorQ.isect
  visible s1 s2 := if s2.geom.infinite then exFloorQ.visible s1 s2 else true

theorem exMirror_material : exMirror.materialAt 2 = some mirror := rfl

theorem exMirror_regular : Regular exMirror exMirrorQ 3 exCam exComps where
  camera := rfl
  proper := exCam_proper
  single := rfl
  surface o d h hd e hf := by
    rcases floor_isect e with ⟨_, hz, x, y, rfl⟩ | ⟨_, rfl⟩
    · refine ⟨rfl, rfl, floor_on x y, by rw [floor_normal]; exact hz.ne, _, exMirror_material, mirror_ok _ _ (floor_on x y) ?_⟩
      simpa [V3.dot] using hd
    · cases hf
  infinite o d h hd e hf := by
    rcases floor_isect e with ⟨_, hz, x, y, rfl⟩ | ⟨_, rfl⟩
    · cases hf
    · exact ⟨rfl, rfl⟩

theorem exMirror_sees (o d : V3 ℝ) : SeesSky exMirrorQ 1 o d ↔ ¬ (-1 < o.z ∧ d.z < 0) := exFloor_sees o d

theorem exMirror_scene : SkyScene exMirror exMirrorQ 3 exCam exComps 1 1 (fun _ => false) 0 (V3.all 1) 0 1 where
  regular := exMirror_regular
  camera := rfl
  one := rfl
  entry := rfl
  index := rfl
  light := rfl
  radius := one_pos
  nonneg := ⟨by simp [V3.all], by simp [V3.all], by simp [V3.all]⟩
  only o d h e hs := by
    rcases floor_isect e with ⟨_, hz, x, y, rfl⟩ | ⟨_, rfl⟩
    · rw [show (floorAt x y).primitive = 2 from rfl] at hs; cases hs
    · rfl
  sky sp wi hv := by
    refine ⟨?_, fun d h e hp => ?_, fun wo _ => ?_, ?_⟩
    · rcases hv with ⟨rfl, _⟩ | ⟨o, d, hd, e, hf, _⟩
      · exact .inl rfl
      · rcases floor_isect e with ⟨_, hz, x, y, rfl⟩ | ⟨_, rfl⟩
        · right; intro h; have := congrArg V3.z h; simp [floorAt] at this
        · cases hf
    · rcases floor_isect e with ⟨_, hz, x, y, rfl⟩ | ⟨_, rfl⟩
      · cases hp
      · rfl
    · rw [exMirror_sees]
      simp [exMirrorQ, exFloorQ, makeInfinite, imp_iff_not_or]
    · simp_rw [exMirror_sees]
      by_cases ho : -1 < sp.geom.p.z
      · simp only [ho, true_and]
        exact (measurableSet_lt measurable_z measurable_const).compl
      · simp [ho]

theorem mirror_sky (i : Fin 3) (k : ℕ) (x y : ℝ) (d : V3 ℝ) : (optics exMirror exMirrorQ i exComps).incoming k (floorAt x y) d = if k = 0 then 0 else 1 := by
  cases k with
  | zero => rfl
  | succ k =>
    have : (optics exMirror exMirrorQ i exComps).isect (floorAt x y).geom.p d = some ⟨.light, 1, makeInfinite (-d) 0 0⟩ := by simp [optics, exMirrorQ, exFloorQ, floorAt]
    simp only [Optics.incoming, this]
    have hl : exMirror.lightAt 1 = some (envconst (fun _ => false) 0 (V3.all 1) 0 1) := rfl
    simp [optics, emitted, hl, makeInfinite, envconst, V3.all]
    fin_cases i <;> simp [chan]

/-- The mirror reflects all the light. -/
theorem mirror_mass (i : Fin 3) (x y : ℝ) (wi : V3 ℝ) (hw : 0 < wi.z) : scattered exMirror i (floorAt x y) wi 0 univ = 1 := by
  have hs : sampleDirection exMirror ⟨0, 0, 0⟩ (floorAt x y) wi 0 .EL = .ok (reflection wi ⟨0, 0, 1⟩) (shadingNormalCorrection (floorAt x y).geom wi (reflection wi ⟨0, 0, 1⟩) .EL • V3.all 1) := by
    unfold sampleDirection
    simp only [show (floorAt x y).kind = .surface from rfl, show (floorAt x y).primitive = 2 from rfl, exMirror_material]
    rfl
  have hz : (reflection wi (⟨0, 0, 1⟩ : V3 ℝ)).z = wi.z := by simp [reflection, V3.dot]; ring
  have hc : shadingNormalCorrection (floorAt x y).geom wi (reflection wi ⟨0, 0, 1⟩) .EL = 1 := by
    simp only [shadingNormalCorrection, floorAt, V3.dot, toLocal, localCos]
    simp only [mul_zero, mul_one, zero_add, add_zero, one_mul, zero_mul, hz]
    exact if_neg (not_or.mpr ⟨not_le.mpr (mul_pos hw hw), not_le.mpr (mul_pos hw hw)⟩)
  have he : evalContrbDirection exMirror (floorAt x y) wi (reflection wi ⟨0, 0, 1⟩) 0 .EL false = some (V3.all 1) := by
    unfold evalContrbDirection
    simp only [show (floorAt x y).kind = .surface from rfl, show (floorAt x y).primitive = 2 from rfl, exMirror_material, Option.bind_some, mirror, Option.map_some, hc, one_smul, Bool.false_eq_true, if_false]
  unfold scattered
  rw [show isSpecularComponent exMirror (floorAt x y) 0 = some true from rfl]
  simp only [hs, he]
  rw [Measure.smul_apply, Measure.dirac_apply_of_mem (mem_univ _)]
  fin_cases i <;> simp [Solid.value, chan, V3.all]

/-- The radiance arriving at the camera: the sky, also in the mirror. -/
theorem mirror_incoming (i : Fin 3) (k : ℕ) (d : V3 ℝ) : (optics exMirror exMirrorQ i exComps).incoming (k + 1) (camVertex exMirror 3 exCam) d = if d.z < 0 then (if k = 0 then 0 else 1) else 1 := by
  have hp : (camVertex exMirror 3 exCam).geom.p = 0 := rfl
  by_cases hz : d.z < 0
  · have : (optics exMirror exMirrorQ i exComps).isect 0 d = some (floorAt (0 + (-1 - 0) / d.z * d.x) (0 + (-1 - 0) / d.z * d.y)) := by
      simp only [optics, exMirrorQ, exFloorQ]
      rw [if_pos ⟨by simp, hz⟩]; rfl
    simp only [Optics.incoming, hp, this, if_pos hz]
    generalize (0 + (-1 - 0) / d.z * d.x) = x
    generalize (0 + (-1 - 0) / d.z * d.y) = y
    have hf : (floorAt x y).geom.infinite = false := rfl
    have he : (optics exMirror exMirrorQ i exComps).emit (floorAt x y) (-d) = 0 := rfl
    rw [hf, he]
    simp_rw [mirror_sky]
    have : ∑ c ∈ (optics exMirror exMirrorQ i exComps).comps (floorAt x y) (-d), ∫⁻ _, (if k = 0 then 0 else 1) ∂(optics exMirror exMirrorQ i exComps).scatter (floorAt x y) (-d) c =
        (if k = 0 then 0 else 1) * scattered exMirror i (floorAt x y) (-d) 0 univ := by
      show ∑ c ∈ {0}, _ = _
      rw [Finset.sum_singleton, lintegral_const]; rfl
    simp only [Bool.false_eq_true, if_false, zero_add]
    rw [this, mirror_mass i x y (-d) (by simpa using hz)]
    split <;> simp
  · have : (optics exMirror exMirrorQ i exComps).isect 0 d = some ⟨.light, 1, makeInfinite (-d) 0 0⟩ := by
      simp only [optics, exMirrorQ, exFloorQ]
      rw [if_neg (fun h => hz h.2)]
    simp only [Optics.incoming, hp, this, if_neg hz]
    have hl : exMirror.lightAt 1 = some (envconst (fun _ => false) 0 (V3.all 1) 0 1) := rfl
    simp [optics, emitted, hl, makeInfinite, envconst, V3.all]
    fin_cases i <;> simp [chan]

theorem exMirror_measurable (i : Fin 3) (k : ℕ) (sp : SI) (wi : V3 ℝ) (hv : Vertex exMirror exMirrorQ 3 exCam sp wi) : Measurable ((optics exMirror exMirrorQ i exComps).incoming k sp) := by
  rcases hv with ⟨rfl, _⟩ | ⟨o, d, hd, e, hf, _⟩
  · cases k with
    | zero => exact measurable_const
    | succ k =>
      have : (optics exMirror exMirrorQ i exComps).incoming (k + 1) (camVertex exMirror 3 exCam) = fun d => if d.z < 0 then (if k = 0 then 0 else 1) else 1 := funext (mirror_incoming i k)
      rw [this]
      exact Measurable.ite (measurableSet_lt measurable_z measurable_const) measurable_const measurable_const
  · rcases floor_isect e with ⟨_, hz, x, y, rfl⟩ | ⟨_, rfl⟩
    · have : (optics exMirror exMirrorQ i exComps).incoming k (floorAt x y) = fun _ => if k = 0 then 0 else 1 := funext (mirror_sky i k x y)
      rw [this]
      exact measurable_const
    · cases hf

theorem exMirror_polished (j : Int) (m : Mat) (h : exMirror.materialAt j = some m) : Polished m := by
  left
  unfold World.materialAt at h
  simp only [Option.map_eq_some_iff, Option.bind_eq_some_iff] at h
  obtain ⟨_, _, _, _, h⟩ := h
  exact h.symm

theorem exMirror_surface (o d : V3 ℝ) (h : SI) (e : exMirrorQ.isect o d = some h) (hf : h.geom.infinite = false) : h.kind = .surface := by
  rcases floor_isect e with ⟨_, hz, x, y, rfl⟩ | ⟨_, rfl⟩
  · rfl
  · cases hf

/-- The hypotheses of `C86_specular_black` are met. -/
example : (∀ j m, exMirror.materialAt j = some m → Polished m) ∧ (∀ o d h, exMirrorQ.isect o d = some h → h.geom.infinite = false → h.kind = .surface) := ⟨exMirror_polished, exMirror_surface⟩

/-- The connection of a point of the floor to the camera is defined. -/
theorem exMirror_nee (nv : ℕ) (x y : ℝ) (c : ℕ) (wi thr : V3 ℝ) (rp : ℝ × ℝ) (r : Rnd) : ∃ l, ltNee exMirror exMirrorQ nv ⟨floorAt x y, c, wi, thr, rp⟩ r = some l := by
  obtain ⟨wo, hw, hwu⟩ : ∃ wo, normalize ((floorAt x y).geom.p - exCam.position) = some wo ∧ wo.z ≠ 0 := by
    have h0 : V3.dot ((floorAt x y).geom.p - exCam.position) ((floorAt x y).geom.p - exCam.position) ≠ 0 := by
      simp only [floorAt, exCam, sub_zero, V3.dot]; nlinarith [sq_nonneg x, sq_nonneg y]
    refine ⟨_, by unfold Material.normalize; rw [if_neg h0], ?_⟩
    have : 0 < Real.sqrt (V3.dot ((floorAt x y).geom.p - exCam.position) ((floorAt x y).geom.p - exCam.position)) := Real.sqrt_pos.mpr (lt_of_le_of_ne (dot_self_nonneg _) (Ne.symm h0))
    simp only [V3.smul_z]
    refine mul_ne_zero (one_div_ne_zero this.ne') ?_
    simp [floorAt, exCam]
  have hz : -(toEye exCam wo).z ≠ 0 := by simpa [toEye, exCam, V3.dot] using hwu
  have hden : exCam.tf * exCam.tf * exCam.aspect * 4 ≠ 0 := by norm_num [exCam]
  obtain ⟨J, hJ⟩ : ∃ J, camJ exCam wo = some J := ⟨_, by simp only [camJ, divF, hz, hden, if_false, Option.bind_eq_bind, Option.bind_some]; rfl⟩
  obtain ⟨G, hG⟩ : ∃ G, geometryTerm (floorAt x y).geom (makeDegenerated exCam.position 0) = some G := by
    unfold geometryTerm
    have h0 : V3.dot ((makeDegenerated exCam.position (0 : V3 ℝ)).p - (floorAt x y).geom.p) ((makeDegenerated exCam.position (0 : V3 ℝ)).p - (floorAt x y).geom.p) ≠ 0 := by
      simp only [makeDegenerated, floorAt, exCam, zero_sub, V3.dot, V3.neg_x, V3.neg_y, V3.neg_z]; nlinarith [sq_nonneg x, sq_nonneg y]
    simp only [h0, if_false]
    exact ⟨_, rfl⟩
  have hS : sampleDirect exMirror r.light (floorAt x y) .EL = .fail ∨ ∃ sp w, sampleDirect exMirror r.light (floorAt x y) .EL = .ok sp wo w := by
    have hc : exMirror.st.camera = some 3 := rfl
    have hc' : exMirror.cameraAt 3 = some exCam := rfl
    simp only [sampleDirect, hc, hc', camSampleDirect, show (floorAt x y).geom.infinite = false from rfl, Bool.false_eq_true, if_false, hw, hJ, rayOrFail, camPdfDirect, show exMirror.junk = 0 from rfl, hG, overG, Option.map_some, Option.some.injEq]
    by_cases hg : G = 0
    · left; simp [hg, wrap]
    · right
      have : (1 : ℝ) / G ≠ 0 := one_div_ne_zero hg
      simp only [hg, this, if_false, ray, divV, wrap]
      exact ⟨_, _, rfl⟩
  unfold ltNee
  rcases hS with hS | ⟨sp, w, hS⟩
  · simp only [hS]; exact ⟨_, rfl⟩
  · simp only [hS]
    split
    · exact ⟨_, rfl⟩
    · have hr : rasterAt exMirror wo = some (rasterPosition exCam wo) := rfl
      have he : ∀ d, ∃ f, evalContrbDirection exMirror (floorAt x y) wi d c .LE true = some f := fun d => by
        unfold evalContrbDirection
        simp only [show (floorAt x y).kind = .surface from rfl, show (floorAt x y).primitive = 2 from rfl, exMirror_material]
        exact ⟨_, rfl⟩
      obtain ⟨f, hf⟩ := he (-wo)
      simp only [hr, Option.bind_eq_bind, Option.bind_some, hf]
      cases rasterPosition exCam wo with
      | none => exact ⟨_, rfl⟩
      | some q => exact ⟨_, rfl⟩

theorem exMirror_walk (rs : ℕ → Rnd) (k nv : ℕ) (x y : ℝ) (c : ℕ) (wi thr : V3 ℝ) (rp : ℝ × ℝ) : ∃ l, Render.walk exMirror (rouletteAt (2 / 10)) (ltBody exMirror exMirrorQ) rs k nv ⟨floorAt x y, c, wi, thr, rp⟩ = some l := by
  cases k with
  | zero => exact ⟨_, rfl⟩
  | succ k =>
    obtain ⟨a, ha⟩ := exMirror_nee nv x y c wi thr rp (rs nv)
    have hd : ∃ w, sampleDirection exMirror (rs nv).dir (floorAt x y) wi c .LE = .ok (reflection wi ⟨0, 0, 1⟩) w := by
      unfold sampleDirection
      simp only [show (floorAt x y).kind = .surface from rfl, show (floorAt x y).primitive = 2 from rfl, exMirror_material]
      exact ⟨_, rfl⟩
    obtain ⟨w, hd⟩ := hd
    have hi : exMirrorQ.isect (floorAt x y).geom.p (reflection wi ⟨0, 0, 1⟩) = some ⟨.light, 1, makeInfinite (-(reflection wi ⟨0, 0, 1⟩)) 0 0⟩ := by simp [exMirrorQ, exFloorQ, floorAt]
    refine ⟨a, ?_⟩
    have hb : ltBody exMirror exMirrorQ nv ⟨floorAt x y, c, wi, thr, rp⟩ (rs nv) = some (a, some ⟨⟨.light, 1, makeInfinite (-(reflection wi ⟨0, 0, 1⟩)) 0 0⟩, reflection wi ⟨0, 0, 1⟩, thr * w, rp⟩) := by
      simp only [ltBody, ha, Option.bind_eq_bind, Option.bind_some, hd, hi]; rfl
    simp only [Render.walk, hb, advance, makeInfinite, if_true]

/-- A sample of the light tracer is defined, for all random numbers. -/
theorem exMirror_defined (N : ℕ) (u : RaySampleU) (uc : ℝ) (rs : ℕ → Rnd) : ∃ l, ltSample exMirror exMirrorQ N u uc rs = some l := by
  obtain ⟨sp, wo, w, hs⟩ : ∃ sp wo w, samplePrimaryRay exMirror u .LE = .ok sp wo w := by
    have hl : exMirror.st.lights.length = 1 := rfl
    have hsel : Scene.sampleLightSelection 1 u.upc0 = (0, some (1 / ((1 : ℕ) : ℝ))) := by
      simp [Scene.sampleLightSelection]
    have hprim : Scene.lightPrimitiveIndexAt exMirror.st 0 = some (1, 1) := rfl
    have hL : exMirror.lightAt 1 = some (envconst (fun _ => false) 0 (V3.all 1) 0 1) := rfl
    have hp := pdfSphere_pos.ne'
    simp only [samplePrimaryRay, sampleFromLight, hl, hsel, hprim, hL]
    simp [envconst, ray, pdfDisk, divV, divF, hp, wrap, Real.pi_ne_zero]
  unfold ltSample
  simp only [hs]
  cases e : exMirrorQ.isect sp.geom.p wo with
  | none => exact ⟨_, rfl⟩
  | some hit =>
    rcases floor_isect e with ⟨_, hz, x, y, rfl⟩ | ⟨_, rfl⟩
    · simp only [show (floorAt x y).geom.infinite = false from rfl, Bool.false_eq_true, if_false]
      have hc : sampleComponent exMirror uc (floorAt x y) (-wo) = some (0, 1) := rfl
      simp only [hc, Option.bind_eq_bind, Option.bind_some]
      exact exMirror_walk _ _ _ _ _ _ _ _ _
    · exact ⟨_, rfl⟩

theorem exMirror_black (i : Fin 3) (H : ℝ × ℝ → ℝ≥0∞) (N : ℕ) (u : RaySampleU) (uc : ℝ) (rs : ℕ → Rnd) : measured i H (ltSample exMirror exMirrorQ N u uc rs) = 0 := by
  obtain ⟨l, hl⟩ := exMirror_defined N u uc rs
  have h0 := C86_specular_black exMirror_polished exMirror_surface N u uc rs l hl
  rw [hl]
  refine List.sum_eq_zero fun v hv => ?_
  obtain ⟨s, hs, rfl⟩ := List.mem_map.mp hv
  rw [h0 s hs]
  fin_cases i <;> simp [chan]

theorem average_zero (k nv : ℕ) (rs : ℕ → Rnd) : average k nv rs (fun _ => 0) = 0 := by
  induction k generalizing nv rs with
  | zero => rfl
  | succ k ih =>
    simp only [average, ih, averageStep, averageLight, lintegral_zero]

/-- C86, negation. The light tracer and the path tracer do not compute the same image in scenes with specular materials, not even up to the lights that the camera sees: there is a scene, a mirror under a constant sky, in which
    the light tracer computes black for every maximal length of paths and the path tracer the sky in the mirror, radiance 1, from three vertices on, while the camera sees no light directly. -/
theorem C86_negation_mirror (i : Fin 3) (mode : Mode) (px : Bool) (u : RaySampleU) (uc : ℝ) (rs : ℕ → Rnd) (N : ℕ) (H : ℝ × ℝ → ℝ≥0∞) (hH : Measurable H) :
    averageLight (fun u => ∫⁻ uc, average (N + 3 - 2) 2 rs (fun rs' => measured i H (ltSample exMirror exMirrorQ (N + 3) u uc rs')) ∂uniform1) = 0 ∧
    average (N + 3 - 1) 1 rs (fun rs' => measured i H (ptSample exMirror exMirrorQ ⟨mode, px, N + 3⟩ u uc rs')) = ∫⁻ q, H q ∂uniform2 ∧
    average 1 1 rs (fun rs' => measured i H (ptSample exMirror exMirrorQ ⟨mode, px, 2⟩ u uc rs')) = 0 := by
  choose dir hdir using fun q : ℝ × ℝ => (C47_primary exCam exCam_proper q.1 q.2)
  have hz : ∀ q, (dir q).z < 0 := fun q => by
    have := (towards_eye exCam exCam_proper (dir q) q.1 q.2 (hdir q).2.2).1
    simpa [toEye, exCam, V3.dot] using this
  refine ⟨?_, ?_, ?_⟩
  · simp only [exMirror_black, average_zero, lintegral_zero, averageLight]
  · have h := C82_sky exMirror_scene i (exMirror_measurable i) ⟨mode, px, N + 3⟩ dir (fun q => (hdir q).1) H hH u uc rs
    rw [show (⟨mode, px, N + 3⟩ : Cfg).maxVerts - 1 = N + 1 + 1 from rfl] at h
    rw [show N + 3 - 1 = N + 1 + 1 from rfl, h]
    simp_rw [mirror_incoming i (N + 1), if_pos (hz _)]
    simp
  · have h := C82_sky exMirror_scene i (exMirror_measurable i) ⟨mode, px, 2⟩ dir (fun q => (hdir q).1) H hH u uc rs
    rw [show (⟨mode, px, 2⟩ : Cfg).maxVerts - 1 = 0 + 1 from rfl] at h
    rw [show 1 = 0 + 1 from rfl, h]
    simp_rw [mirror_incoming i 0, if_pos (hz _)]
    simp

end LM.Transport
