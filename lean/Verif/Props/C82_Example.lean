import Verif.Props.C82_Sky
import Verif.Props.C54_Once
/-
  C82: a concrete scene. A diffuse floor with albedo 1/2 under a constant sky of radiance 1, seen from above.
-/
namespace LM.Transport
open MeasureTheory LM LM.Surface LM.Material LM.Light LM.MathF LM.Path LM.Render LM.Solid
open scoped ENNReal

noncomputable def exFloor : World := { exSky with material := fun _ => diffuse (fun _ => V3.all (1 / 2)) }

/-- A point of the floor. -/
noncomputable def floorAt (x y : ℝ) : SI := ⟨.surface, 2, ⟨false, false, ⟨x, y, -1⟩, ⟨0, 0, 1⟩, ⟨0, 0, 1⟩, 0, ⟨1, 0, 0⟩, ⟨0, 1, 0⟩⟩⟩

open Classical in
/-- Rays from above the floor going down meet it; the others meet the sky. -/
noncomputable def exFloorQ : Query where
  isect o d := some (if -1 < o.z ∧ d.z < 0 then floorAt (o.x + (-1 - o.z) / d.z * d.x) (o.y + (-1 - o.z) / d.z * d.y) else ⟨.light, 1, makeInfinite (-d) 0 0⟩)
  visible s1 s2 := s2.geom.infinite && decide (¬ (-1 < s1.geom.p.z ∧ (-s2.geom.wo).z < 0))

def exComps : SI → V3 ℝ → Finset ℕ := fun _ _ => {0}

theorem exCam_proper : exCam.Proper := by
  refine ⟨⟨?_, ?_, ?_, ?_, ?_, ?_, ?_⟩, by norm_num [exCam], by norm_num [exCam]⟩ <;> simp [exCam, V3.dot, V3.cross]

theorem floor_on (x y : ℝ) : OnSurface (floorAt x y).geom := by simp [OnSurface, MathF.Orthonormal, floorAt, V3.dot, V3.cross]

theorem floor_normal (x y : ℝ) (d : V3 ℝ) : V3.dot d (floorAt x y).geom.n = d.z := by simp [floorAt, V3.dot]

theorem floor_isect {o d : V3 ℝ} {h : SI} (e : exFloorQ.isect o d = some h) :
    (-1 < o.z ∧ d.z < 0 ∧ ∃ x y, h = floorAt x y) ∨ (¬ (-1 < o.z ∧ d.z < 0) ∧ h = ⟨.light, 1, makeInfinite (-d) 0 0⟩) := by
  have e' := Option.some.inj e
  split at e'
  · rename_i hc
    exact .inl ⟨hc.1, hc.2, _, _, e'.symm⟩
  · rename_i hc
    exact .inr ⟨hc, e'.symm⟩

theorem exFloor_material : exFloor.materialAt 2 = some (diffuse fun _ => V3.all (1 / 2)) := rfl
theorem exFloor_floor_light : exFloor.lightAt 2 = none := rfl

theorem exFloor_regular : Regular exFloor exFloorQ 3 exCam exComps where
  camera := rfl
  proper := exCam_proper
  single := rfl
  surface o d h hd e hf := by
    rcases floor_isect e with ⟨_, hz, x, y, rfl⟩ | ⟨_, rfl⟩
    · refine ⟨rfl, rfl, floor_on x y, by rw [floor_normal]; exact hz.ne, _, exFloor_material, diffuse_ok _ _ _ (floor_on x y) ?_ ?_⟩
      · rw [floor_normal]; simpa using hz.ne
      · exact ⟨by simp [V3.all], by simp [V3.all], by simp [V3.all]⟩
    · cases hf
  infinite o d h hd e hf := by
    rcases floor_isect e with ⟨_, hz, x, y, rfl⟩ | ⟨_, rfl⟩
    · cases hf
    · exact ⟨rfl, rfl⟩

theorem exFloor_sees (o d : V3 ℝ) : SeesSky exFloorQ 1 o d ↔ ¬ (-1 < o.z ∧ d.z < 0) := by
  constructor
  · rintro ⟨h, e, hp⟩
    rcases floor_isect e with ⟨_, hz, x, y, rfl⟩ | ⟨hn, rfl⟩
    · cases hp
    · exact hn
  · intro hn
    exact ⟨⟨.light, 1, makeInfinite (-d) 0 0⟩, by simp only [exFloorQ, if_neg hn], rfl⟩

/-- The floor under the sky meets the hypotheses of `C82_sky`. -/
theorem exFloor_scene : SkyScene exFloor exFloorQ 3 exCam exComps 1 1 (fun _ => false) 0 (V3.all 1) 0 1 where
  regular := exFloor_regular
  camera := rfl
  one := rfl
  entry := rfl
  index := rfl
  light := rfl
  radius := one_pos
  nonneg := ⟨by simp [V3.all], by simp [V3.all], by simp [V3.all]⟩
  only o d h e hs := by
    rcases floor_isect e with ⟨_, hz, x, y, rfl⟩ | ⟨_, rfl⟩
    · rw [show (floorAt x y).primitive = 2 from rfl, exFloor_floor_light] at hs; cases hs
    · rfl
  sky sp wi hv := by
    refine ⟨?_, fun d h e hp => ?_, fun wo _ => ?_, ?_⟩
    · rcases hv with ⟨rfl, _⟩ | ⟨o, d, hd, e, hf, _⟩
      · exact .inl rfl
      · rcases floor_isect e with ⟨_, hz, x, y, rfl⟩ | ⟨_, rfl⟩
        · right; intro h; have := congrArg V3.z h; simp [floorAt] at this
        · cases hf
    · rcases floor_isect e with ⟨_, hz, x, y, rfl⟩ | ⟨_, rfl⟩
      · cases hp
      · rfl
    · rw [exFloor_sees]
      simp [exFloorQ, makeInfinite, imp_iff_not_or]
    · simp_rw [exFloor_sees]
      by_cases ho : -1 < sp.geom.p.z
      · simp only [ho, true_and]
        exact (measurableSet_lt measurable_z measurable_const).compl
      · simp [ho]

/-! ### The radiance -/

theorem floor_sky (i : Fin 3) (k : ℕ) (x y : ℝ) (d : V3 ℝ) : (optics exFloor exFloorQ i exComps).incoming k (floorAt x y) d = if k = 0 then 0 else 1 := by
  cases k with
  | zero => rfl
  | succ k =>
    have : (optics exFloor exFloorQ i exComps).isect (floorAt x y).geom.p d = some ⟨.light, 1, makeInfinite (-d) 0 0⟩ := by simp [optics, exFloorQ, floorAt]
    simp only [Optics.incoming, this]
    have hl : exFloor.lightAt 1 = some (envconst (fun _ => false) 0 (V3.all 1) 0 1) := rfl
    simp [optics, emitted, hl, makeInfinite, envconst, V3.all]
    fin_cases i <;> simp [chan]

theorem floor_mass (i : Fin 3) (x y : ℝ) (wi : V3 ℝ) (hw : 0 < wi.z) : scattered exFloor i (floorAt x y) wi 0 Set.univ = 1 / 2 := by
  have hn : V3.dot wi (floorAt x y).geom.n ≠ 0 := by rw [floor_normal]; exact hw.ne'
  have hK : NonNeg (V3.all (1 / 2 : ℝ)) := ⟨by simp [V3.all], by simp [V3.all], by simp [V3.all]⟩
  have h := smooth_unbiased (W := exFloor) (sp := floorAt x y) rfl rfl exFloor_material (diffuse_smooth _ 0 _ wi (floor_on x y) hn hK) i (fun _ => 1) measurable_const
  rw [lintegral_one] at h
  rw [← h]
  have : ∀ᵐ u : ℝ × ℝ × ℝ ∂uniform3, worth i (fun _ => 1) (sampleDirection exFloor ⟨u.1, u.2.1, u.2.2⟩ (floorAt x y) wi 0 .EL) = 1 / 2 := cube_ae.mono fun u hu => by
    rw [worth_surface rfl exFloor_material]
    obtain ⟨wo, e, h1, h2⟩ := diffuse_sample (fun _ => V3.all (1 / 2)) (floorAt x y).geom wi ⟨u.1, u.2.1, u.2.2⟩ 0 .EL (floor_on x y) hn hu
    rw [e]
    have hs : shadingNormalCorrection (floorAt x y).geom wi wo .EL = 1 := by
      rw [floor_normal, floor_normal] at h2
      have hwo : 0 < wo.z := by rcases mul_pos_iff.mp h2 with h | h; exact h.2; linarith [h.1]
      simp only [shadingNormalCorrection, floorAt, V3.dot, toLocal, localCos]
      simp only [mul_zero, mul_one, zero_add, add_zero, one_mul, zero_mul]
      exact if_neg (not_or.mpr ⟨not_le.mpr (mul_pos hw hw), not_le.mpr (mul_pos hwo hwo)⟩)
    simp only [worth, hs, ENNReal.ofReal_one, mul_one]
    have : chan i (V3.all (1 / 2 : ℝ)) = 1 / 2 := by fin_cases i <;> rfl
    rw [this, ENNReal.ofReal_div_of_pos two_pos]; simp
  rw [lintegral_congr_ae this, int3_const]

/-- The radiance arriving at the camera: from the sky 1, from the floor half of what arrives there. -/
theorem cam_incoming (i : Fin 3) (k : ℕ) (d : V3 ℝ) : (optics exFloor exFloorQ i exComps).incoming (k + 1) (camVertex exFloor 3 exCam) d = if d.z < 0 then (if k = 0 then 0 else 1 / 2) else 1 := by
  have hp : (camVertex exFloor 3 exCam).geom.p = 0 := rfl
  by_cases hz : d.z < 0
  · have : (optics exFloor exFloorQ i exComps).isect 0 d = some (floorAt (0 + (-1 - 0) / d.z * d.x) (0 + (-1 - 0) / d.z * d.y)) := by
      simp only [optics, exFloorQ]
      rw [if_pos ⟨by simp, hz⟩]; rfl
    simp only [Optics.incoming, hp, this, if_pos hz]
    generalize (0 + (-1 - 0) / d.z * d.x) = x
    generalize (0 + (-1 - 0) / d.z * d.y) = y
    have hf : (floorAt x y).geom.infinite = false := rfl
    have he : (optics exFloor exFloorQ i exComps).emit (floorAt x y) (-d) = 0 := rfl
    rw [hf, he]
    simp_rw [floor_sky]
    have : ∑ c ∈ (optics exFloor exFloorQ i exComps).comps (floorAt x y) (-d), ∫⁻ _, (if k = 0 then 0 else 1) ∂(optics exFloor exFloorQ i exComps).scatter (floorAt x y) (-d) c =
        (if k = 0 then 0 else 1) * scattered exFloor i (floorAt x y) (-d) 0 Set.univ := by
      show ∑ c ∈ {0}, _ = _
      rw [Finset.sum_singleton, lintegral_const]; rfl
    simp only [Bool.false_eq_true, if_false, zero_add]
    rw [this, floor_mass i x y (-d) (by simpa using hz)]
    split <;> simp
  · have : (optics exFloor exFloorQ i exComps).isect 0 d = some ⟨.light, 1, makeInfinite (-d) 0 0⟩ := by
      simp only [optics, exFloorQ]
      rw [if_neg (fun h => hz h.2)]
    simp only [Optics.incoming, hp, this, if_neg hz]
    have hl : exFloor.lightAt 1 = some (envconst (fun _ => false) 0 (V3.all 1) 0 1) := rfl
    simp [optics, emitted, hl, makeInfinite, envconst, V3.all]
    fin_cases i <;> simp [chan]

theorem exFloor_measurable (i : Fin 3) (k : ℕ) (sp : SI) (wi : V3 ℝ) (hv : Vertex exFloor exFloorQ 3 exCam sp wi) : Measurable ((optics exFloor exFloorQ i exComps).incoming k sp) := by
  rcases hv with ⟨rfl, _⟩ | ⟨o, d, hd, e, hf, _⟩
  · cases k with
    | zero => exact measurable_const
    | succ k =>
      have : (optics exFloor exFloorQ i exComps).incoming (k + 1) (camVertex exFloor 3 exCam) = fun d => if d.z < 0 then (if k = 0 then 0 else 1 / 2) else 1 := funext (cam_incoming i k)
      rw [this]
      exact Measurable.ite (measurableSet_lt measurable_z measurable_const) measurable_const measurable_const
  · rcases floor_isect e with ⟨_, hz, x, y, rfl⟩ | ⟨_, rfl⟩
    · have : (optics exFloor exFloorQ i exComps).incoming k (floorAt x y) = fun _ => if k = 0 then 0 else 1 := funext (floor_sky i k x y)
      rw [this]
      exact measurable_const
    · cases hf

/-- C82, in a concrete scene: with paths of at least three vertices every pixel of the image of the floor has the average 1/2 in every channel, in every mode; with two vertices 0. -/
theorem C82_example (i : Fin 3) (mode : Mode) (pixel : Bool) (k : ℕ) (H : ℝ × ℝ → ℝ≥0∞) (hH : Measurable H) (u : RaySampleU) (uc : ℝ) (rs : ℕ → Rnd) :
    average (k + 2) 1 rs (fun rs' => measured i H (ptSample exFloor exFloorQ ⟨mode, pixel, k + 3⟩ u uc rs')) = (∫⁻ q, H q ∂uniform2) * (1 / 2) ∧
    average 1 1 rs (fun rs' => measured i H (ptSample exFloor exFloorQ ⟨mode, pixel, 2⟩ u uc rs')) = 0 := by
  choose dir hdir using fun q : ℝ × ℝ => (C47_primary exCam exCam_proper q.1 q.2)
  have hz : ∀ q, (dir q).z < 0 := fun q => by
    have := (towards_eye exCam exCam_proper (dir q) q.1 q.2 (hdir q).2.2).1
    simpa [toEye, exCam, V3.dot] using this
  constructor
  · have h := C82_sky exFloor_scene i (exFloor_measurable i) ⟨mode, pixel, k + 3⟩ dir (fun q => (hdir q).1) H hH u uc rs
    rw [show (⟨mode, pixel, k + 3⟩ : Cfg).maxVerts - 1 = k + 2 from rfl] at h
    rw [h]
    simp_rw [cam_incoming i (k + 1), if_pos (hz _)]
    rw [if_neg (by omega), lintegral_mul_const _ hH]
  · have h := C82_sky exFloor_scene i (exFloor_measurable i) ⟨mode, pixel, 2⟩ dir (fun q => (hdir q).1) H hH u uc rs
    rw [show (⟨mode, pixel, 2⟩ : Cfg).maxVerts - 1 = 0 + 1 from rfl] at h
    rw [show 1 = 0 + 1 from rfl, h]
    simp_rw [cam_incoming i 0, if_pos (hz _)]
    simp

end LM.Transport
