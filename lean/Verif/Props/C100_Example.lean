import Verif.Props.C100_Scene
import Verif.Props.C82_Lamp
/-
  C100: a concrete scene with a point light and a directional light: a diffuse floor at z = -1 with albedo 1/2, a point light of intensity 1 at height h on the z axis, light of irradiance 1 from straight above, and a
  camera at the origin that looks down.
-/
namespace LM.Transport
open MeasureTheory LM LM.Surface LM.Material LM.Light LM.MathF LM.Path LM.Render LM.Solid
open scoped ENNReal

noncomputable def exLitOps : List (Scene.Op (Aff ℝ)) :=
  [.createPrimitive ⟨none, none, some 0, none, none⟩, .createPrimitive ⟨some 0, some 0, none, none, none⟩, .createPrimitive ⟨none, none, none, some 0, none⟩, .createPrimitive ⟨none, none, some 1, none, none⟩,
    .addChild 0 1, .addChild 0 2, .addChild 0 3, .addChild 0 4]

noncomputable def bulb (h : ℝ) : Light := Light.point (V3.all 1) ⟨0, 0, h⟩ 0
noncomputable def sun : Light := directional (fun _ => false) 0 (V3.all 1) ⟨0, 0, -1⟩ 0 1

noncomputable def exLit (h : ℝ) : World where
  st := Scene.buildLights (Scene.run (fun j => j == 1) Scene.reset exLitOps) [(0, 1), (1, 1), (2, 1), (3, 1), (4, 1)]
  light j := if j = 0 then bulb h else sun
  material _ := diffuse (fun _ => V3.all (1 / 2))
  phase _ := Volume.isotropic
  camera _ := exCam
  junk := 0

open Classical in
/-- Rays from above the floor going down meet it; the others leave the scene. -/
noncomputable def exLitQ : Query where
  isect o d := some (if -1 < o.z ∧ d.z < 0 then floorAt (atHeight (-1) o d).x (atHeight (-1) o d).y else ⟨.light, 4, makeInfinite (-d) 0 0⟩)
  visible s1 s2 := !s2.geom.infinite || decide (¬ (-1 < s1.geom.p.z ∧ (-s2.geom.wo).z < 0))

def litNode (j : ℕ) : Int := if j = 0 then 1 else 4
noncomputable def litLight (h : ℝ) (j : ℕ) : Light := if j = 0 then bulb h else sun
noncomputable def litSrc (h : ℝ) (j : ℕ) : Source := if j = 0 then .point (V3.all 1) ⟨0, 0, h⟩ 0 else .beam (V3.all 1) ⟨0, 0, -1⟩ 0

theorem lit_isect {o d : V3 ℝ} {s : SI} (e : exLitQ.isect o d = some s) :
    (-1 < o.z ∧ d.z < 0 ∧ s = floorAt (atHeight (-1) o d).x (atHeight (-1) o d).y) ∨ (¬ (-1 < o.z ∧ d.z < 0) ∧ s = ⟨.light, 4, makeInfinite (-d) 0 0⟩) := by
  have e' := Option.some.inj e
  split at e'
  · rename_i hc; exact .inl ⟨hc.1, hc.2, e'.symm⟩
  · rename_i hc; exact .inr ⟨hc, e'.symm⟩

theorem exLit_regular (h : ℝ) : Regular (exLit h) exLitQ 3 exCam exComps where
  camera := rfl
  proper := exCam_proper
  single := rfl
  surface o d s hd e hf := by
    rcases lit_isect e with ⟨_, hz, rfl⟩ | ⟨_, rfl⟩
    · refine ⟨rfl, rfl, floor_on _ _, by rw [floor_normal]; exact hz.ne, diffuse (fun _ => V3.all (1 / 2)), rfl, diffuse_ok _ _ _ (floor_on _ _) ?_ ?_⟩
      · rw [floor_normal]; simpa using hz.ne
      · exact ⟨by simp [V3.all], by simp [V3.all], by simp [V3.all]⟩
    · cases hf
  infinite o d s hd e hf := by
    rcases lit_isect e with ⟨_, hz, rfl⟩ | ⟨_, rfl⟩
    · cases hf
    · exact ⟨rfl, rfl⟩

theorem exLit_two (h : ℝ) : (exLit h).st.lights.length = 2 := rfl

theorem exLit_table (h : ℝ) : LightTable (exLit h) litNode (fun _ => 1) (litLight h) where
  pos := two_pos
  entry j hj := by
    rw [exLit_two] at hj
    obtain rfl | rfl : j = 0 ∨ j = 1 := by omega
    · rfl
    · rfl
  index j hj := by
    rw [exLit_two] at hj
    obtain rfl | rfl : j = 0 ∨ j = 1 := by omega
    · rfl
    · rfl
  light j hj := by
    rw [exLit_two] at hj
    obtain rfl | rfl : j = 0 ∨ j = 1 := by omega
    · rfl
    · rfl

theorem exLit_at (h : ℝ) (sp : SI) (wi : V3 ℝ) (hv : Vertex (exLit h) exLitQ 3 exCam sp wi) : sp.geom.infinite = false ∧ (sp.geom.p = 0 ∨ sp.geom.p.z = -1) := by
  rcases hv with ⟨rfl, _⟩ | ⟨o, d, hd, e, hf, _⟩
  · exact ⟨rfl, .inl rfl⟩
  · refine ⟨hf, ?_⟩
    rcases lit_isect e with ⟨_, hz, rfl⟩ | ⟨_, rfl⟩
    · exact .inr rfl
    · cases hf

theorem one_nonneg : NonNeg (V3.all (1 : ℝ)) := ⟨by simp [V3.all], by simp [V3.all], by simp [V3.all]⟩

/-- The lights meet the requirements, at the camera and on the floor. -/
theorem exLit_lit (h : ℝ) (h0 : h ≠ 0) (h1 : h ≠ -1) (i : Fin 3) (sp : SI) (wi : V3 ℝ) (hv : Vertex (exLit h) exLitQ 3 exCam sp wi) : LitBy (exLit h) exLitQ i litNode (fun _ => 1) (litLight h) (litSrc h) sp where
  light j hj := by
    obtain ⟨ha, hb⟩ := exLit_at h sp wi hv
    rw [exLit_two] at hj
    obtain rfl | rfl : j = 0 ∨ j = 1 := by omega
    · refine ⟨rfl, one_nonneg, ha, fun e => ?_, fun o d s e => ?_⟩
      · rcases hb with hb | hb
        · rw [hb] at e; exact h0 (congrArg V3.z e).symm
        · rw [e] at hb; exact h1 hb
      · rcases lit_isect e with ⟨_, hz, rfl⟩ | ⟨_, rfl⟩
        · exact fun e => by cases e
        · exact fun e => by cases e
    · exact ⟨⟨_, _, _, rfl⟩, one_nonneg, by simp [V3.dot]⟩
  all d s e hs := by
    rcases lit_isect e with ⟨_, hz, rfl⟩ | ⟨_, rfl⟩
    · cases hs
    · exact ⟨1, by rw [exLit_two]; omega, rfl⟩
  measurable := by
    have : lightPdf (exLit h) exLitQ sp = fun _ => 0 := funext fun d => by
      by_cases hd : V3.dot d d = 1
      · by_cases hc : -1 < sp.geom.p.z ∧ d.z < 0
        · have e : exLitQ.isect sp.geom.p d = some (floorAt (atHeight (-1) sp.geom.p d).x (atHeight (-1) sp.geom.p d).y) := by simp only [exLitQ, if_pos hc]
          unfold lightPdf
          rw [e]; rfl
        · have e : exLitQ.isect sp.geom.p d = some ⟨.light, 4, makeInfinite (-d) 0 0⟩ := by simp only [exLitQ, if_neg hc]
          have := (lightPdf_at2 (exLit_table h) hd e (j := 1) (by rw [exLit_two]; omega) rfl (p := 0) (by simp [litLight, sun, directional])).2
          rw [this, mul_zero]
      · unfold lightPdf
        split
        · rfl
        · split
          · rfl
          · split
            · rfl
            · rw [if_neg hd]
    rw [this]
    exact measurable_const

/-! ### The radiance -/

/-- What the floor at (x, y) reflects: albedo / π times the irradiance, intensity · cos / distance² from the point light and 1 from the directional light. -/
noncomputable def litAt (h x y : ℝ) : ℝ := 1 / 2 / Real.pi * ((h + 1) / Real.sqrt (x ^ 2 + y ^ 2 + (h + 1) ^ 2) / (x ^ 2 + y ^ 2 + (h + 1) ^ 2) + 1)

theorem lit_value (h : ℝ) (i : Fin 3) (x y : ℝ) {wi d : V3 ℝ} (hw : 0 < wi.z) (hd : 0 < d.z) : Solid.value i (evalContrbDirection (exLit h) (floorAt x y) wi d 0 .EL false) = ENNReal.ofReal (1 / 2 / Real.pi) := by
  have hm : (exLit h).materialAt (floorAt x y).primitive = some (diffuse (fun _ => V3.all (1 / 2))) := rfl
  have hk : (floorAt x y).kind = .surface := rfl
  simp only [evalContrbDirection, hk, hm, Option.bind_some, up_snc hw hd, diffuse, Option.map_some]
  have ho : opposite (floorAt x y).geom wi d = false := by
    simp only [opposite, floor_normal, decide_eq_false_iff_not, not_le]
    exact mul_pos hw hd
  rw [ho]
  simp only [Bool.false_eq_true, if_false, one_smul, Solid.value]
  congr 1
  fin_cases i <;> simp [chan, V3.all] <;> ring

theorem lit_glow (h : ℝ) (h1 : -1 < h) (i : Fin 3) (x y : ℝ) (wi : V3 ℝ) (hw : 0 < wi.z) : glowing (exLit h) exLitQ i litNode (litSrc h) (floorAt x y) wi 0 Set.univ = ENNReal.ofReal (litAt h x y) := by
  have hs : isSpecularComponent (exLit h) (floorAt x y) 0 = some false := rfl
  have hpos : 0 < x ^ 2 + y ^ 2 + (h + 1) ^ 2 := by have := sq_nonneg x; have := sq_nonneg y; have : 0 < (h + 1) ^ 2 := pow_pos (by linarith) 2; linarith
  have hh : 0 < h + 1 := by linarith
  unfold glowing shineOn
  rw [if_pos hs, withDensity_apply _ MeasurableSet.univ, Measure.restrict_univ, exLit_two, Finset.sum_range_succ, Finset.sum_range_one, lintegral_add_measure]
  have hL : V3.dot ((⟨0, 0, h⟩ : V3 ℝ) - (floorAt x y).geom.p) (⟨0, 0, h⟩ - (floorAt x y).geom.p) = x ^ 2 + y ^ 2 + (h + 1) ^ 2 := by
    simp [V3.dot, floorAt]; ring
  have e0 : (litSrc h 0).shine (floorAt x y).geom.p = some ⟨(1 / Real.sqrt (x ^ 2 + y ^ 2 + (h + 1) ^ 2)) • (⟨0, 0, h⟩ - (floorAt x y).geom.p), (1 / (x ^ 2 + y ^ 2 + (h + 1) ^ 2)) • V3.all 1, makeDegenerated ⟨0, 0, h⟩ 0⟩ := by
    show some _ = _
    rw [hL]
  have e1 : (litSrc h 1).shine (floorAt x y).geom.p = some ⟨-⟨0, 0, -1⟩, V3.all 1, makeInfinite ⟨0, 0, -1⟩ 0 0⟩ := rfl
  have v0 : exLitQ.visible (floorAt x y) ⟨.light, litNode 0, makeDegenerated ⟨0, 0, h⟩ 0⟩ = true := by simp [exLitQ, makeDegenerated]
  have v1 : exLitQ.visible (floorAt x y) ⟨.light, litNode 1, makeInfinite ⟨0, 0, -1⟩ 0 0⟩ = true := by simp [exLitQ, floorAt, makeInfinite]
  rw [e0, e1]
  dsimp only
  rw [if_pos v0, if_pos v1, lintegral_smul_measure, lintegral_smul_measure, lintegral_dirac, lintegral_dirac, lit_value h i x y hw, lit_value h i x y hw]
  rotate_left
  · simp
  · simp [floorAt]
    exact mul_pos (inv_pos.mpr (Real.sqrt_pos.mpr hpos)) hh
  have c0 : cosineAt (floorAt x y).geom ((1 / Real.sqrt (x ^ 2 + y ^ 2 + (h + 1) ^ 2)) • (⟨0, 0, h⟩ - (floorAt x y).geom.p)) = (h + 1) / Real.sqrt (x ^ 2 + y ^ 2 + (h + 1) ^ 2) := by
    simp only [cosineAt, floorAt, V3.dot]
    simp
    rw [abs_of_pos hh, abs_of_nonneg (Real.sqrt_nonneg _)]
    ring
  have c1 : cosineAt (floorAt x y).geom (-⟨0, 0, -1⟩) = 1 := by simp [cosineAt, floorAt, V3.dot]
  have k0 : chan i ((1 / (x ^ 2 + y ^ 2 + (h + 1) ^ 2)) • V3.all 1) = 1 / (x ^ 2 + y ^ 2 + (h + 1) ^ 2) := by fin_cases i <;> simp [chan, V3.all]
  have k1 : chan i (V3.all (1 : ℝ)) = 1 := by fin_cases i <;> rfl
  rw [c0, c1, k0, k1, smul_eq_mul, smul_eq_mul, ← ENNReal.ofReal_mul (by positivity), ← ENNReal.ofReal_mul (by positivity), ← ENNReal.ofReal_add (by positivity) (by positivity)]
  congr 1
  unfold litAt
  ring

theorem lit_dark (h : ℝ) (i : Fin 3) (k : ℕ) (sp : SI) (d : V3 ℝ) : (optics (exLit h) exLitQ i exComps).incoming k sp d = 0 := by
  induction k generalizing sp d with
  | zero => rfl
  | succ k ih =>
    by_cases hc : -1 < sp.geom.p.z ∧ d.z < 0
    · have e : (optics (exLit h) exLitQ i exComps).isect sp.geom.p d = some (floorAt (atHeight (-1) sp.geom.p d).x (atHeight (-1) sp.geom.p d).y) := by simp only [optics, exLitQ, if_pos hc]
      simp only [Optics.incoming, e]
      have he : (optics (exLit h) exLitQ i exComps).emit (floorAt (atHeight (-1) sp.geom.p d).x (atHeight (-1) sp.geom.p d).y) (-d) = 0 := rfl
      rw [he]
      simp [ih]
    · have e : (optics (exLit h) exLitQ i exComps).isect sp.geom.p d = some ⟨.light, 4, makeInfinite (-d) 0 0⟩ := by simp only [optics, exLitQ, if_neg hc]
      simp only [Optics.incoming, e]
      have hl : (exLit h).lightAt 4 = some sun := rfl
      simp [optics, emitted, hl, makeInfinite, sun, directional, V3.all]
      fin_cases i <;> simp [chan]

open Classical in
theorem lit_radiance (h : ℝ) (h1 : -1 < h) (i : Fin 3) (k : ℕ) (sp : SI) (d : V3 ℝ) : radianceLit (exLit h) exLitQ i exComps litNode (litSrc h) k sp d =
    if 2 ≤ k ∧ -1 < sp.geom.p.z ∧ d.z < 0 then ENNReal.ofReal (litAt h (atHeight (-1) sp.geom.p d).x (atHeight (-1) sp.geom.p d).y) else 0 := by
  unfold radianceLit
  have up : ∀ (k : ℕ) (sp : SI) (d : V3 ℝ), ¬ (-1 < sp.geom.p.z ∧ d.z < 0) → (optics (exLit h) exLitQ i exComps).lit (fun sp wi c => glowing (exLit h) exLitQ i litNode (litSrc h) sp wi c Set.univ) k sp d = 0 := by
    intro k sp d hc
    cases k with
    | zero => rfl
    | succ k =>
      have e : (optics (exLit h) exLitQ i exComps).isect sp.geom.p d = some ⟨.light, 4, makeInfinite (-d) 0 0⟩ := by simp only [optics, exLitQ, if_neg hc]
      simp only [Optics.lit, e]
      have hl : (exLit h).lightAt 4 = some sun := rfl
      simp [optics, emitted, hl, makeInfinite, sun, directional, V3.all]
      fin_cases i <;> simp [chan]
  by_cases hc : -1 < sp.geom.p.z ∧ d.z < 0
  · cases k with
    | zero => simp [Optics.lit]
    | succ k =>
      have e : (optics (exLit h) exLitQ i exComps).isect sp.geom.p d = some (floorAt (atHeight (-1) sp.geom.p d).x (atHeight (-1) sp.geom.p d).y) := by simp only [optics, exLitQ, if_pos hc]
      simp only [Optics.lit, e]
      generalize (atHeight (-1) sp.geom.p d).x = x
      generalize (atHeight (-1) sp.geom.p d).y = y
      have hf : (floorAt x y).geom.infinite = false := rfl
      have he : (optics (exLit h) exLitQ i exComps).emit (floorAt x y) (-d) = 0 := rfl
      have hcomp : (optics (exLit h) exLitQ i exComps).comps (floorAt x y) (-d) = {0} := rfl
      rw [hf, he, hcomp, Finset.sum_singleton, lit_glow h h1 i x y (-d) (by simpa using hc.2)]
      simp only [Bool.false_eq_true, if_false, zero_add]
      have : ∀ d', (optics (exLit h) exLitQ i exComps).lit (fun sp wi c => glowing (exLit h) exLitQ i litNode (litSrc h) sp wi c Set.univ) k (floorAt x y) d' = 0 := fun d' => up k _ d' (by simp [floorAt])
      simp_rw [this]
      rw [lintegral_zero, zero_add]
      by_cases hk : k = 0
      · simp [hk]
      · rw [if_neg hk, if_pos ⟨by omega, hc⟩]
  · rw [up k sp d hc, if_neg (fun h => hc h.2)]

theorem litAt_measurable (h : ℝ) : Measurable fun q : ℝ × ℝ => litAt h q.1 q.2 := by
  unfold litAt
  fun_prop

theorem lit_measurable (h : ℝ) (h1 : -1 < h) (i : Fin 3) (k : ℕ) (sp : SI) : Measurable (radianceLit (exLit h) exLitQ i exComps litNode (litSrc h) k sp) := by
  classical
  have : radianceLit (exLit h) exLitQ i exComps litNode (litSrc h) k sp = fun d => if d ∈ {d : V3 ℝ | 2 ≤ k ∧ -1 < sp.geom.p.z ∧ d.z < 0} then ENNReal.ofReal (litAt h (atHeight (-1) sp.geom.p d).x (atHeight (-1) sp.geom.p d).y) else 0 :=
    funext fun d => by rw [lit_radiance h h1]; simp only [Set.mem_ofPred_eq]
  rw [this]
  have hq : Measurable fun d => ((atHeight (-1) sp.geom.p d).x, (atHeight (-1) sp.geom.p d).y) := Measurable.prodMk (measurable_x.comp (measurable_atHeight _ _)) (measurable_y.comp (measurable_atHeight _ _))
  have hL : Measurable fun d => litAt h (atHeight (-1) sp.geom.p d).x (atHeight (-1) sp.geom.p d).y := by
    have := Measurable.comp (g := fun q : ℝ × ℝ => litAt h q.1 q.2) (litAt_measurable h) hq
    simpa only [Function.comp_def] using this
  exact Measurable.ite ((MeasurableSet.const _).inter ((MeasurableSet.const _).inter (measurableSet_lt measurable_z measurable_const))) hL.ennreal_ofReal measurable_const

/-- What the camera sees: the floor at the points below. -/
theorem lit_down (q : ℝ × ℝ) (dir : ℝ × ℝ → V3 ℝ) (hdir : ∀ q, primaryRay exCam q.1 q.2 = some (dir q)) : (dir q).z < 0 := by
  obtain ⟨d, e, _, ht⟩ := C47_primary exCam exCam_proper q.1 q.2
  rw [hdir q] at e; cases e
  have := (towards_eye exCam exCam_proper (dir q) q.1 q.2 ht).1
  simpa [toEye, exCam, V3.dot] using this

/-- C100, in a concrete scene: with primary rays sampled in a pixel and paths of at least three vertices, the average image with light sampling is albedo / π times the irradiance of the point seen, from both lights. -/
theorem C100_example (h : ℝ) (h0 : h ≠ 0) (h1 : -1 < h) (i : Fin 3) (mode : Mode) (hm : mode ≠ .naive) (k : ℕ) (dir : ℝ × ℝ → V3 ℝ) (hdir : ∀ q, primaryRay exCam q.1 q.2 = some (dir q)) (H : ℝ × ℝ → ℝ≥0∞) (hH : Measurable H)
    (u : RaySampleU) (uc : ℝ) (rs : ℕ → Rnd) :
    average (k + 2) 1 rs (fun rs' => measured i H (ptSample (exLit h) exLitQ ⟨mode, true, k + 3⟩ u uc rs')) = ∫⁻ q, H q * ENNReal.ofReal (litAt h (atHeight (-1) 0 (dir q)).x (atHeight (-1) 0 (dir q)).y) ∂uniform2 := by
  have hcam : (exLit h).st.camera = some 3 := rfl
  have e := C100_scene_partial (exLit_regular h) hcam (exLit_table h) (litSrc h) i (fun sp wi hv => exLit_lit h h0 h1.ne' i sp wi hv)
    (fun k sp _ _ => by rw [show (optics (exLit h) exLitQ i exComps).incoming k sp = fun _ => 0 from funext (lit_dark h i k sp)]; exact measurable_const)
    (fun k sp _ _ => lit_measurable h h1 i k sp) ⟨mode, true, k + 3⟩ hm dir hdir H hH u uc rs
  rw [show (⟨mode, true, k + 3⟩ : Cfg).maxVerts - 1 = k + 2 from rfl] at e
  rw [e, if_pos (.inr rfl), add_zero]
  refine lintegral_congr fun q => ?_
  rw [lit_radiance h h1, if_pos ⟨by omega, by simp [camVertex, makeDegenerated, exCam], lit_down q dir hdir⟩]
  rfl

theorem lit_pos (h : ℝ) (h1 : -1 < h) (x y : ℝ) : 1 / 2 / Real.pi ≤ litAt h x y := by
  have hpi := Real.pi_pos
  have hh : 0 ≤ h + 1 := by linarith
  unfold litAt
  have : 0 ≤ (h + 1) / Real.sqrt (x ^ 2 + y ^ 2 + (h + 1) ^ 2) / (x ^ 2 + y ^ 2 + (h + 1) ^ 2) := by positivity
  exact le_mul_of_one_le_right (by positivity) (by linarith)

/-- C100. Without light sampling the same scene is black, whatever the length of the paths and the way primary rays are sampled: the modes do not agree if there are lights without extent. -/
theorem C100_negation_naive (i : Fin 3) (pixel : Bool) (k : ℕ) (u : RaySampleU) (uc : ℝ) (rs : ℕ → Rnd) :
    (∀ H : ℝ × ℝ → ℝ≥0∞, Measurable H → average (k + 2) 1 rs (fun rs' => measured i H (ptSample (exLit 1) exLitQ ⟨.naive, pixel, k + 3⟩ u uc rs')) = 0) ∧
      average (k + 2) 1 rs (fun rs' => measured i (fun _ => 1) (ptSample (exLit 1) exLitQ ⟨.nee, true, k + 3⟩ u uc rs')) ≠ 0 := by
  choose dir hdir using fun q : ℝ × ℝ => (C47_primary exCam exCam_proper q.1 q.2)
  constructor
  · intro H hH
    have hcam : (exLit 1).st.camera = some 3 := rfl
    have hmeas : ∀ k sp wi, Vertex (exLit 1) exLitQ 3 exCam sp wi → Measurable ((optics (exLit 1) exLitQ i exComps).incoming k sp) := fun k sp _ _ => by
      rw [show (optics (exLit 1) exLitQ i exComps).incoming k sp = fun _ => 0 from funext (lit_dark 1 i k sp)]; exact measurable_const
    have e := C82_pt (exLit 1) exLitQ _ (connection (exLit 1) exLitQ) i _ ((exLit_regular 1).sound i hmeas) ⟨.naive, pixel, k + 3⟩ (fun h => absurd rfl h) 3 exCam hcam (exLit_regular 1).camera exCam_proper (.inl ⟨rfl, rfl⟩)
      (Finset.mem_singleton_self 0) dir (fun q => (hdir q).1) H hH u uc rs
    rw [show (⟨.naive, pixel, k + 3⟩ : Cfg).maxVerts - 1 = k + 2 from rfl] at e
    rw [e]
    simp_rw [lit_dark, mul_zero]
    exact lintegral_zero
  · rw [C100_example 1 one_ne_zero (by norm_num) i .nee (by simp) k dir (fun q => (hdir q).1) _ measurable_const u uc rs]
    have hpi := Real.pi_pos
    have : ENNReal.ofReal (1 / 2 / Real.pi) ≤ ∫⁻ q, 1 * ENNReal.ofReal (litAt 1 (atHeight (-1) 0 (dir q)).x (atHeight (-1) 0 (dir q)).y) ∂uniform2 := by
      rw [← int2_const (ENNReal.ofReal (1 / 2 / Real.pi))]
      refine lintegral_mono fun q => ?_
      rw [one_mul]
      exact ENNReal.ofReal_le_ofReal (lit_pos 1 (by norm_num) _ _)
    have hp : 0 < ENNReal.ofReal (1 / 2 / Real.pi) := ENNReal.ofReal_pos.mpr (by positivity)
    exact (hp.trans_le this).ne'

/-- C100. With a point light in view, the images with primary rays sampled in a pixel and on the whole film differ: what is measured at the position of the light on the film is nothing in the former, and something in
    the latter. -/
theorem C100_negation_dots (i : Fin 3) (k : ℕ) (u : RaySampleU) (uc : ℝ) (rs : ℕ → Rnd) :
    average (k + 2) 1 rs (fun rs' => measured i (({(1 / 2, 1 / 2)} : Set (ℝ × ℝ)).indicator 1) (ptSample (exLit (-1 / 2)) exLitQ ⟨.nee, true, k + 3⟩ u uc rs')) = 0 ∧
      average (k + 2) 1 rs (fun rs' => measured i (({(1 / 2, 1 / 2)} : Set (ℝ × ℝ)).indicator 1) (ptSample (exLit (-1 / 2)) exLitQ ⟨.nee, false, k + 3⟩ u uc rs')) ≠ 0 := by
  choose dir hdir using fun q : ℝ × ℝ => (C47_primary exCam exCam_proper q.1 q.2)
  have hH : Measurable (({(1 / 2, 1 / 2)} : Set (ℝ × ℝ)).indicator (1 : ℝ × ℝ → ℝ≥0∞)) := measurable_one.indicator (measurableSet_singleton _)
  constructor
  · rw [C100_example (-1 / 2) (by norm_num) (by norm_num) i .nee (by simp) k dir (fun q => (hdir q).1) _ hH u uc rs]
    have hn : ∀ᵐ q ∂uniform2, q ≠ ((1 / 2, 1 / 2) : ℝ × ℝ) := by
      unfold uniform2
      exact ae_restrict_of_ae (Measure.ae_ne volume _)
    rw [lintegral_congr_ae (hn.mono fun q hq => by beta_reduce; rw [Set.indicator_of_notMem (by simpa using hq), zero_mul])]
    exact lintegral_zero
  · have hcam : (exLit (-1 / 2)).st.camera = some 3 := rfl
    have e := C100_scene_partial (exLit_regular (-1 / 2)) hcam (exLit_table (-1 / 2)) (litSrc (-1 / 2)) i (fun sp wi hv => exLit_lit (-1 / 2) (by norm_num) (by norm_num) i sp wi hv)
      (fun k sp _ _ => by rw [show (optics (exLit (-1 / 2)) exLitQ i exComps).incoming k sp = fun _ => 0 from funext (lit_dark _ i k sp)]; exact measurable_const)
      (fun k sp _ _ => lit_measurable (-1 / 2) (by norm_num) i k sp) ⟨.nee, false, k + 3⟩ (by simp) dir (fun q => (hdir q).1) _ hH u uc rs
    rw [show (⟨.nee, false, k + 3⟩ : Cfg).maxVerts - 1 = k + 2 from rfl] at e
    rw [e, if_neg (by simp)]
    obtain ⟨P, hP, hPe⟩ := cam_measurable exCam_proper
    have hdown : rasterPosition exCam ⟨0, 0, -1⟩ = some (1 / 2, 1 / 2) := by
      simp only [rasterPosition, toEye, exCam, V3.dot]
      norm_num
    have hPpos : 0 < P ⟨0, 0, -1⟩ := by
      have := (hPe ⟨0, 0, -1⟩).1
      have hJ : camJ exCam ⟨0, 0, -1⟩ = some (1 / 8) := by
        simp only [camJ, toEye, exCam, V3.dot, divF]
        norm_num
      simp only [camPdfDirection, hdown, hJ, Option.some.injEq] at this
      rw [← this]; norm_num
    have hval : ∀ d, Solid.value i (evalContrbDirection (exLit (-1 / 2)) (camVertex (exLit (-1 / 2)) 3 exCam) 0 d 0 .EL false) = ENNReal.ofReal (P d) := fun d => by
      have : evalContrbDirection (exLit (-1 / 2)) (camVertex (exLit (-1 / 2)) 3 exCam) 0 d 0 .EL false = some (V3.all (P d)) := (hPe d).2.1
      rw [this]
      fin_cases i <;> rfl
    have hs : isSpecularComponent (exLit (-1 / 2)) (camVertex (exLit (-1 / 2)) 3 exCam) 0 = some false := rfl
    have hfilm := measurable_onCamera (exLit (-1 / 2)) 3 exCam hcam rfl _ hH (0, 0)
    unfold glowing shineOn
    simp_rw [if_pos hs, hval]
    rw [lintegral_withDensity_eq_lintegral_mul _ hP.ennreal_ofReal hfilm, exLit_two, Finset.sum_range_succ, Finset.sum_range_one, lintegral_add_measure]
    have e0 : (litSrc (-1 / 2) 0).shine (camVertex (exLit (-1 / 2)) 3 exCam).geom.p = some ⟨⟨0, 0, -1⟩, V3.all 4, makeDegenerated ⟨0, 0, -1 / 2⟩ 0⟩ := by
      have hd : (⟨0, 0, -1 / 2⟩ : V3 ℝ) - (camVertex (exLit (-1 / 2)) 3 exCam).geom.p = ⟨0, 0, -1 / 2⟩ := by
        show (⟨0, 0, -1 / 2⟩ : V3 ℝ) - 0 = _; simp
      have hq : V3.dot (⟨0, 0, -1 / 2⟩ : V3 ℝ) ⟨0, 0, -1 / 2⟩ = (1 / 2) ^ 2 := by simp [V3.dot]; norm_num
      show some (Shine.mk _ _ _) = _
      rw [hd, hq, Real.sqrt_sq (by norm_num)]
      congr 2
      · ext <;> norm_num
      · ext <;> norm_num [V3.all]
    have v0 : exLitQ.visible (camVertex (exLit (-1 / 2)) 3 exCam) ⟨.light, litNode 0, makeDegenerated ⟨0, 0, -1 / 2⟩ 0⟩ = true := by simp [exLitQ, makeDegenerated]
    rw [e0]
    dsimp only
    rw [if_pos v0, lintegral_smul_measure, lintegral_dirac]
    have c0 : cosineAt (camVertex (exLit (-1 / 2)) 3 exCam).geom ⟨0, 0, -1⟩ = 1 := by simp [cosineAt, camVertex, makeDegenerated]
    have k0 : chan i (V3.all (4 : ℝ)) = 4 := by fin_cases i <;> rfl
    have hon : onFilm (exLit (-1 / 2)) (({(1 / 2, 1 / 2)} : Set (ℝ × ℝ)).indicator 1) 1 (0, 0) ⟨0, 0, -1⟩ = 1 := by
      have : rasterAt (exLit (-1 / 2)) ⟨0, 0, -1⟩ = some (some (1 / 2, 1 / 2)) := by
        rw [← hdown]; rfl
      simp only [onFilm, if_true, this]
      rw [Set.indicator_of_mem (by simp)]; rfl
    rw [c0, k0, Pi.mul_apply, hon, mul_one, mul_one, smul_eq_mul]
    refine (lt_of_lt_of_le ?_ (le_trans le_self_add le_add_self)).ne'
    exact ENNReal.mul_pos (ENNReal.ofReal_pos.mpr (by norm_num)).ne' (ENNReal.ofReal_pos.mpr hPpos).ne'

end LM.Transport
