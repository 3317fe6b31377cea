import Verif.Props.C82_Lamps
import Verif.Props.C82_Example
/-
  C82: a concrete scene with an area light: a diffuse floor at z = -1 with albedo 1/2, below a black triangle at z = 1 which emits radiance 1 downwards, and a camera between them.
-/
namespace LM.Transport
open MeasureTheory LM LM.Surface LM.Material LM.Light LM.MathF LM.Path LM.Render LM.Solid
open scoped ENNReal

noncomputable def lampTri : Tri := ⟨⟨0, 0, 1⟩, ⟨0, 1, 1⟩, ⟨1, 0, 1⟩⟩

noncomputable def exLampOps : List (Scene.Op (Aff ℝ)) :=
  [.createPrimitive ⟨some 0, some 1, some 0, none, none⟩, .createPrimitive ⟨some 1, some 0, none, none, none⟩, .createPrimitive ⟨none, none, none, some 0, none⟩, .addChild 0 1, .addChild 0 2, .addChild 0 3]

noncomputable def exLamp : World where
  st := Scene.buildLights (Scene.run (fun _ => false) Scene.reset exLampOps) [(0, 1), (1, 1), (2, 1), (3, 1)]
  light _ := area (fun _ => false) 0 (V3.all 1) [lampTri]
  material j := diffuse (fun _ => if j = 0 then V3.all (1 / 2) else 0)
  phase _ := Volume.isotropic
  camera _ := exCam
  junk := 0

/-- A point of the lamp. -/
noncomputable def lampAt (p : V3 ℝ) : SI := ⟨.surface, 1, ⟨false, false, p, ⟨0, 0, -1⟩, ⟨0, 0, -1⟩, 0, ⟨0, 1, 0⟩, ⟨1, 0, 0⟩⟩⟩

/-- The point at height z on a ray. -/
noncomputable def atHeight (z : ℝ) (o d : V3 ℝ) : V3 ℝ := o + ((z - o.z) / d.z) • d

/-- The ray meets the lamp. -/
def MeetsLamp (o d : V3 ℝ) : Prop := o.z < 1 ∧ 0 < d.z ∧ Inside lampTri (atHeight 1 o d)

open Classical in
noncomputable def lampIsect (o d : V3 ℝ) : Option SI :=
  if MeetsLamp o d then some (lampAt (atHeight 1 o d)) else if -1 < o.z ∧ d.z < 0 then some (floorAt (atHeight (-1) o d).x (atHeight (-1) o d).y) else none

open Classical in
noncomputable def exLampQ : Query where
  isect := lampIsect
  visible s1 s2 := decide (SeesPoint ⟨lampIsect, fun _ _ => true⟩ s2.primitive s1.geom.p s2.geom.p)

theorem lamp_isect {o d : V3 ℝ} {h : SI} (e : exLampQ.isect o d = some h) :
    (MeetsLamp o d ∧ h = lampAt (atHeight 1 o d)) ∨ (-1 < o.z ∧ d.z < 0 ∧ h = floorAt (atHeight (-1) o d).x (atHeight (-1) o d).y) := by
  have e' : lampIsect o d = some h := e
  unfold lampIsect at e'
  split at e'
  · rename_i hc; exact .inl ⟨hc, (Option.some.inj e').symm⟩
  · split at e'
    · rename_i hc; exact .inr ⟨hc.1, hc.2, (Option.some.inj e').symm⟩
    · cases e'

theorem lampTri_inside (p : V3 ℝ) : Inside lampTri p ↔ 0 < p.x ∧ 0 < p.y ∧ p.x + p.y < 1 ∧ p.z = 1 := by
  constructor
  · rintro ⟨q, ⟨h1, h2, h3⟩, rfl⟩
    simp only [triAt, lampTri, V3.add_x, V3.add_y, V3.add_z, V3.smul_x, V3.smul_y, V3.smul_z, V3.sub_x, V3.sub_y, V3.sub_z]
    refine ⟨?_, ?_, ?_, ?_⟩ <;> linarith
  · rintro ⟨h1, h2, h3, h4⟩
    refine ⟨(p.y, p.x), ⟨h2, h1, by show p.y + p.x < 1; linarith⟩, ?_⟩
    ext <;> simp [triAt, lampTri, h4]

theorem lampTri_map : triMap 1 lampTri = lampTri := by
  unfold triMap
  have h : ∀ p : V3 ℝ, (1 : Aff ℝ).app p = p := fun p => by ext <;> simp [Aff.app, Aff.lin, Aff.one_def]
  rw [h, h, h]

theorem lampTri_normal : frontNormal 1 lampTri = ⟨0, 0, -1⟩ := by
  unfold frontNormal
  have : (1 : Aff ℝ).normalM (triCross lampTri) = ⟨0, 0, -1⟩ := by
    ext <;> simp [Aff.normalM, Aff.det, Aff.one_def, triCross, lampTri, V3.cross, V3.dot]
  rw [this]
  ext <;> simp [dirOf, V3.dot]

theorem lamp_on (p : V3 ℝ) : OnSurface (lampAt p).geom := by simp [OnSurface, MathF.Orthonormal, lampAt, V3.dot, V3.cross]

theorem exLamp_regular : Regular exLamp exLampQ 3 exCam exComps where
  camera := rfl
  proper := exCam_proper
  single := rfl
  surface o d h hd e hf := by
    rcases lamp_isect e with ⟨hm, rfl⟩ | ⟨_, hz, rfl⟩
    · have hne : V3.dot d (lampAt (atHeight 1 o d)).geom.n ≠ 0 := by simp [lampAt, V3.dot]; exact hm.2.1.ne'
      refine ⟨rfl, rfl, lamp_on _, hne, diffuse (fun _ => 0), rfl, diffuse_ok _ _ _ (lamp_on _) ?_ ⟨le_rfl, le_rfl, le_rfl⟩⟩
      rw [V3.dot_neg_left]; simpa using hne
    · refine ⟨rfl, rfl, floor_on _ _, by rw [floor_normal]; exact hz.ne, diffuse (fun _ => V3.all (1 / 2)), rfl, diffuse_ok _ _ _ (floor_on _ _) ?_ ?_⟩
      · rw [floor_normal]; simpa using hz.ne
      · exact ⟨by simp [V3.all], by simp [V3.all], by simp [V3.all]⟩
  infinite o d h hd e hf := by
    rcases lamp_isect e with ⟨_, rfl⟩ | ⟨_, _, rfl⟩ <;> cases hf

theorem exLamp_table : LightTable exLamp (fun _ => 1) (fun _ => 1) (fun _ => area (fun _ => false) 0 (V3.all 1) [lampTri]) where
  pos := one_pos
  entry j hj := by
    have : j = 0 := by have : exLamp.st.lights.length = 1 := rfl; omega
    subst this; rfl
  index j hj := by
    have : j = 0 := by have : exLamp.st.lights.length = 1 := rfl; omega
    subst this; rfl
  light _ _ := rfl

theorem measurable_atHeight (z : ℝ) (o : V3 ℝ) : Measurable (atHeight z o) := by
  unfold atHeight
  exact measurable_add3 measurable_const (measurable_smul3 (measurable_const.div measurable_z) measurable_id)

theorem measurable_inside : MeasurableSet {p | Inside lampTri p} := by
  simp_rw [lampTri_inside]
  exact (measurableSet_lt measurable_const measurable_x).inter ((measurableSet_lt measurable_const measurable_y).inter ((measurableSet_lt (measurable_x.add measurable_y) measurable_const).inter (measurableSet_eq_fun measurable_z measurable_const)))

theorem measurable_meets (o : V3 ℝ) : MeasurableSet {d | MeetsLamp o d} :=
  (MeasurableSet.const _).inter ((measurableSet_lt measurable_const measurable_z).inter (measurable_inside.preimage (measurable_atHeight 1 o)))

theorem lamp_sees (o d : V3 ℝ) : SeesSky exLampQ 1 o d ↔ MeetsLamp o d := by
  constructor
  · rintro ⟨h, e, hp⟩
    rcases lamp_isect e with ⟨hm, rfl⟩ | ⟨_, hz, rfl⟩
    · exact hm
    · cases hp
  · intro hm
    exact ⟨lampAt (atHeight 1 o d), by show lampIsect o d = _; unfold lampIsect; rw [if_pos hm], rfl⟩

/-- A point of the lamp is seen from all points below it. -/
theorem lamp_point (o p : V3 ℝ) : SeesPoint exLampQ 1 o p ↔ o.z < 1 ∧ Inside lampTri p := by
  constructor
  · rintro ⟨h, e, hp, hq⟩
    rcases lamp_isect e with ⟨hm, rfl⟩ | ⟨_, hz, rfl⟩
    · exact ⟨hm.1, by rw [← hq]; exact hm.2.2⟩
    · cases hp
  · rintro ⟨ho, hi⟩
    have hpz := ((lampTri_inside p).mp hi).2.2.2
    have hpos : 0 < V3.dot (p - o) (p - o) := by
      rcases (dot_self_nonneg (p - o)).eq_or_lt with h | h
      · have := congrArg V3.z (dot_self_zero h.symm)
        simp [hpz] at this; linarith
      · exact h
    have hr := Real.sqrt_pos.mpr hpos
    obtain ⟨_, hv⟩ := dirOf_spec hpos
    have hz : p.z - o.z = Real.sqrt (V3.dot (p - o) (p - o)) * (dirOf (p - o)).z := by simpa using congrArg V3.z hv
    have hdz : 0 < (dirOf (p - o)).z := by
      rw [hpz] at hz
      by_contra hc
      have := mul_nonneg hr.le (neg_nonneg.mpr (not_lt.mp hc))
      linarith
    have hat : atHeight 1 o (dirOf (p - o)) = p := by
      unfold atHeight
      rw [← hpz, hz, mul_div_cancel_right₀ _ hdz.ne', ← hv]
      abel
    have hm : MeetsLamp o (dirOf (p - o)) := ⟨ho, hdz, by rw [hat]; exact hi⟩
    exact ⟨lampAt (atHeight 1 o (dirOf (p - o))), by show lampIsect o _ = _; unfold lampIsect; rw [if_pos hm], rfl, hat⟩

theorem lamp_area : 0 < ([lampTri].map triArea).sum := by
  have : triArea lampTri = 1 / 2 := by
    simp [triArea, lampTri, V3.cross, V3.dot, safeSqrt]
  simp [this]

theorem exLamp_light (sp : SI) (wi : V3 ℝ) (hv : Vertex exLamp exLampQ 3 exCam sp wi) : LightAt exLampQ 1 1 sp (area (fun _ => false) 0 (V3.all 1) [lampTri]) := by
  have hfin : sp.geom.infinite = false := by
    rcases hv with ⟨rfl, _⟩ | ⟨o, d, hd, e, hf, _⟩
    · rfl
    · exact hf
  have hdet : (1 : Aff ℝ).det = 1 := by simp [Aff.det, Aff.one_def, V3.dot, V3.cross]
  refine .area _ _ _ _ lamp_area (by rw [hdet]; exact one_ne_zero) ?_ ⟨by simp [V3.all], by simp [V3.all], by simp [V3.all]⟩ ⟨hfin, fun g _ _ _ _ _ => ?_, ?_, fun d h hd e hp => ?_, ?_⟩ ⟨?_, atHeight 1 sp.geom.p, fun _ => ⟨0, 0, -1⟩, measurable_atHeight _ _, measurable_const, fun d h e hp => ?_⟩
  · intro t ht
    rw [List.mem_singleton] at ht
    subst ht
    rw [lampTri_map, hdet, abs_one, one_mul]
  · classical exact decide_eq_true_iff
  · simp_rw [lamp_point]
    exact (MeasurableSet.const _).inter measurable_inside
  · rcases lamp_isect e with ⟨hm, rfl⟩ | ⟨_, hz, rfl⟩
    · refine ⟨rfl, rfl, (1 - sp.geom.p.z) / d.z, div_pos (by linarith [hm.1]) hm.2.1, rfl⟩
    · cases hp
  · refine Filter.Eventually.of_forall fun d h e hp => ?_
    rcases lamp_isect e with ⟨hm, rfl⟩ | ⟨_, hz, rfl⟩
    · refine ⟨0, lampTri, rfl, by rw [lampTri_map]; exact hm.2.2, by rw [lampTri_normal]; rfl, fun k t hk _ => ?_⟩
      cases k with
      | zero => rfl
      | succ k => simp at hk
    · cases hp
  · simp_rw [lamp_sees]
    exact measurable_meets _
  · rcases lamp_isect e with ⟨hm, rfl⟩ | ⟨_, hz, rfl⟩
    · exact ⟨rfl, rfl⟩
    · cases hp

theorem exLamp_all (o d : V3 ℝ) (h : SI) (e : exLampQ.isect o d = some h) (hs : (exLamp.lightAt h.primitive).isSome) : ∃ j < exLamp.st.lights.length, h.primitive = (fun _ => 1 : ℕ → Int) j := by
  rcases lamp_isect e with ⟨hm, rfl⟩ | ⟨_, hz, rfl⟩
  · exact ⟨0, one_pos, rfl⟩
  · cases hs

/-! ### The radiance -/

theorem up_snc {x y : ℝ} {wi d : V3 ℝ} (hw : 0 < wi.z) (hd : 0 < d.z) : shadingNormalCorrection (floorAt x y).geom wi d .EL = 1 := by
  simp only [shadingNormalCorrection, floorAt, V3.dot, toLocal, localCos]
  simp only [mul_zero, mul_one, zero_add, add_zero, one_mul, zero_mul]
  exact if_neg (not_or.mpr ⟨not_le.mpr (mul_pos hw hw), not_le.mpr (mul_pos hd hd)⟩)

/-- The floor scatters upwards, in the same way everywhere. -/
theorem lamp_scattered (i : Fin 3) (x y : ℝ) (wi : V3 ℝ) (hw : 0 < wi.z) (S : Set (V3 ℝ)) (hS : MeasurableSet S) (hup : ∀ d ∈ S, 0 < d.z) :
    scattered exLamp i (floorAt x y) wi 0 S = ENNReal.ofReal (1 / 2 / Real.pi) * projSolidAngle ⟨0, 0, 1⟩ S := by
  have h0 : isSpecularComponent exLamp (floorAt x y) 0 = some false := rfl
  unfold scattered
  rw [h0]
  dsimp only
  rw [withDensity_apply _ hS]
  have h1 : solidAngleAt (floorAt x y).geom = projSolidAngle ⟨0, 0, 1⟩ := rfl
  rw [h1]
  have : ∀ d ∈ S, Solid.value i (evalContrbDirection exLamp (floorAt x y) wi d 0 .EL false) = ENNReal.ofReal (1 / 2 / Real.pi) := fun d hd => by
    have hm : exLamp.materialAt (floorAt x y).primitive = some (diffuse (fun _ => V3.all (1 / 2))) := rfl
    have hk : (floorAt x y).kind = .surface := rfl
    simp only [evalContrbDirection, hk, hm, Option.bind_some, up_snc hw (hup d hd), diffuse, Option.map_some]
    have ho : opposite (floorAt x y).geom wi d = false := by
      simp only [opposite, floor_normal, decide_eq_false_iff_not, not_le]
      exact mul_pos hw (hup d hd)
    rw [ho]
    simp only [Bool.false_eq_true, if_false, one_smul, Solid.value]
    congr 1
    fin_cases i <;> simp [chan, V3.all] <;> ring
  rw [setLIntegral_congr_fun hS this, setLIntegral_const]

theorem lamp_black (i : Fin 3) (p wi : V3 ℝ) : scattered exLamp i (lampAt p) wi 0 = 0 := by
  have h0 : isSpecularComponent exLamp (lampAt p) 0 = some false := rfl
  unfold scattered
  rw [h0]
  have : ∀ d, Solid.value i (evalContrbDirection exLamp (lampAt p) wi d 0 .EL false) = 0 := fun d => by
    have hm : exLamp.materialAt (lampAt p).primitive = some (diffuse (fun _ => 0)) := rfl
    have hk : (lampAt p).kind = .surface := rfl
    simp only [evalContrbDirection, hk, hm, Option.bind_some, diffuse, Option.map_some, smul_zero, ite_self, Solid.value]
    fin_cases i <;> simp [chan]
  simp_rw [this]
  exact withDensity_zero

open Classical in
theorem lamp_incoming (i : Fin 3) (k : ℕ) (sp : SI) (d : V3 ℝ) : (optics exLamp exLampQ i exComps).incoming (k + 1) sp d =
    if MeetsLamp sp.geom.p d then 1 else if -1 < sp.geom.p.z ∧ d.z < 0 then
      ∫⁻ d', (optics exLamp exLampQ i exComps).incoming k (floorAt (atHeight (-1) sp.geom.p d).x (atHeight (-1) sp.geom.p d).y) d' ∂scattered exLamp i (floorAt (atHeight (-1) sp.geom.p d).x (atHeight (-1) sp.geom.p d).y) (-d) 0 else 0 := by
  by_cases hm : MeetsLamp sp.geom.p d
  · have e : (optics exLamp exLampQ i exComps).isect sp.geom.p d = some (lampAt (atHeight 1 sp.geom.p d)) := by
      show lampIsect _ _ = _; unfold lampIsect; rw [if_pos hm]
    simp only [Optics.incoming, e, if_pos hm]
    have hf : (lampAt (atHeight 1 sp.geom.p d)).geom.infinite = false := rfl
    have he : (optics exLamp exLampQ i exComps).emit (lampAt (atHeight 1 sp.geom.p d)) (-d) = 1 := by
      have hl : exLamp.lightAt (lampAt (atHeight 1 sp.geom.p d)).primitive = some (area (fun _ => false) 0 (V3.all 1) [lampTri]) := rfl
      simp only [optics, emitted, hl, area, areaEval]
      have : ¬ V3.dot (-d) (lampAt (atHeight 1 sp.geom.p d)).geom.n ≤ 0 := by
        simp [lampAt, V3.dot]; exact hm.2.1
      rw [if_neg this]
      fin_cases i <;> simp [chan, V3.all]
    rw [hf, he]
    have : ∑ c ∈ (optics exLamp exLampQ i exComps).comps (lampAt (atHeight 1 sp.geom.p d)) (-d), ∫⁻ d', (optics exLamp exLampQ i exComps).incoming k (lampAt (atHeight 1 sp.geom.p d)) d' ∂(optics exLamp exLampQ i exComps).scatter (lampAt (atHeight 1 sp.geom.p d)) (-d) c = 0 := by
      rw [show (optics exLamp exLampQ i exComps).comps (lampAt (atHeight 1 sp.geom.p d)) (-d) = {0} from rfl, show (optics exLamp exLampQ i exComps).scatter = scattered exLamp i from rfl]
      rw [Finset.sum_singleton, lamp_black, lintegral_zero_measure]
    rw [this]
    simp
  · rw [if_neg hm]
    by_cases hz : -1 < sp.geom.p.z ∧ d.z < 0
    · have e : (optics exLamp exLampQ i exComps).isect sp.geom.p d = some (floorAt (atHeight (-1) sp.geom.p d).x (atHeight (-1) sp.geom.p d).y) := by
        show lampIsect _ _ = _; unfold lampIsect; rw [if_neg hm, if_pos hz]
      simp only [Optics.incoming, e, if_pos hz]
      generalize (atHeight (-1) sp.geom.p d).x = x
      generalize (atHeight (-1) sp.geom.p d).y = y
      have hf : (floorAt x y).geom.infinite = false := rfl
      have he : (optics exLamp exLampQ i exComps).emit (floorAt x y) (-d) = 0 := rfl
      rw [hf, he]
      simp only [Bool.false_eq_true, if_false, zero_add]
      rw [show (optics exLamp exLampQ i exComps).comps (floorAt x y) (-d) = {0} from rfl, show (optics exLamp exLampQ i exComps).scatter = scattered exLamp i from rfl]
      rw [Finset.sum_singleton]
    · have e : (optics exLamp exLampQ i exComps).isect sp.geom.p d = none := by
        show lampIsect _ _ = _; unfold lampIsect; rw [if_neg hm, if_neg hz]
      simp only [Optics.incoming, e, if_neg hz]

/-- What the floor at (x, y) reflects: albedo / π times the irradiance from the lamp. -/
noncomputable def lampLit (x y : ℝ) : ℝ≥0∞ := ENNReal.ofReal (1 / 2 / Real.pi) * projSolidAngle ⟨0, 0, 1⟩ {d | MeetsLamp ⟨x, y, -1⟩ d}

open Classical in
theorem floor_reflects (i : Fin 3) (k : ℕ) (x y : ℝ) (wi : V3 ℝ) (hw : 0 < wi.z) : ∫⁻ d', (optics exLamp exLampQ i exComps).incoming k (floorAt x y) d' ∂scattered exLamp i (floorAt x y) wi 0 = if k = 0 then 0 else lampLit x y := by
  cases k with
  | zero => simp [Optics.incoming]
  | succ k =>
    have e : ∀ d', (optics exLamp exLampQ i exComps).incoming (k + 1) (floorAt x y) d' = {d | MeetsLamp ⟨x, y, -1⟩ d}.indicator 1 d' := fun d' => by
      rw [lamp_incoming]
      have hp : (floorAt x y).geom.p = ⟨x, y, -1⟩ := rfl
      rw [hp]
      by_cases hm : MeetsLamp ⟨x, y, -1⟩ d'
      · rw [if_pos hm, Set.indicator_of_mem (show d' ∈ {d | MeetsLamp ⟨x, y, -1⟩ d} from hm)]; rfl
      · rw [if_neg hm, Set.indicator_of_notMem (show d' ∉ {d | MeetsLamp ⟨x, y, -1⟩ d} from hm), if_neg (by simp)]
    simp_rw [e]
    rw [lintegral_indicator_one (measurable_meets _), lamp_scattered i x y wi hw _ (measurable_meets _) fun d hd => hd.2.1, if_neg (by omega)]
    rfl

theorem lampLit_measurable : Measurable fun q : ℝ × ℝ => lampLit q.1 q.2 := by
  unfold lampLit
  refine measurable_const.mul ?_
  have hset : MeasurableSet {a : (ℝ × ℝ) × V3 ℝ | MeetsLamp ⟨a.1.1, a.1.2, -1⟩ a.2} := by
    have hz : Measurable fun a : (ℝ × ℝ) × V3 ℝ => a.2.z := measurable_z.comp measurable_snd
    have hq : Measurable fun a : (ℝ × ℝ) × V3 ℝ => (1 - -1) / a.2.z := measurable_const.div hz
    have h2 : Measurable fun a : (ℝ × ℝ) × V3 ℝ => atHeight 1 ⟨a.1.1, a.1.2, -1⟩ a.2 := by
      unfold atHeight
      exact measurable_add3 (measurable_mk (f := fun a : (ℝ × ℝ) × V3 ℝ => (⟨a.1.1, a.1.2, -1⟩ : V3 ℝ)) measurable_fst.fst measurable_fst.snd measurable_const) (measurable_smul3 hq measurable_snd)
    exact (MeasurableSet.const ((-1 : ℝ) < 1)).inter ((measurableSet_lt measurable_const hz).inter (measurable_inside.preimage h2))
  have hfin : IsFiniteMeasure solidAngle := ⟨by rw [solidAngle_univ]; exact ENNReal.ofReal_lt_top⟩
  have hsf : SFinite (projSolidAngle ⟨0, 0, 1⟩) := by unfold projSolidAngle; infer_instance
  exact measurable_measure_prodMk_left hset

theorem exLamp_measurable (i : Fin 3) (k : ℕ) (sp : SI) : Measurable ((optics exLamp exLampQ i exComps).incoming k sp) := by
  classical
  cases k with
  | zero => exact measurable_const
  | succ k =>
    have : (optics exLamp exLampQ i exComps).incoming (k + 1) sp = fun d => if d ∈ {d | MeetsLamp sp.geom.p d} then 1 else if d ∈ {d : V3 ℝ | -1 < sp.geom.p.z ∧ d.z < 0} then
        (if k = 0 then 0 else lampLit (atHeight (-1) sp.geom.p d).x (atHeight (-1) sp.geom.p d).y) else 0 := funext fun d => by
      rw [lamp_incoming]
      simp only [Set.mem_ofPred_eq]
      split
      · rfl
      · split
        · rename_i hz
          rw [floor_reflects i k _ _ (-d) (by simpa using hz.2)]
        · rfl
    rw [this]
    have hq : Measurable fun d => ((atHeight (-1) sp.geom.p d).x, (atHeight (-1) sp.geom.p d).y) := Measurable.prodMk (measurable_x.comp (measurable_atHeight _ _)) (measurable_y.comp (measurable_atHeight _ _))
    have hL : Measurable fun d => lampLit (atHeight (-1) sp.geom.p d).x (atHeight (-1) sp.geom.p d).y := by
      have := Measurable.comp (g := fun q : ℝ × ℝ => lampLit q.1 q.2) lampLit_measurable hq
      simpa only [Function.comp_def] using this
    have hL' : Measurable fun d => if k = 0 then 0 else lampLit (atHeight (-1) sp.geom.p d).x (atHeight (-1) sp.geom.p d).y := Measurable.ite (MeasurableSet.const _) measurable_const hL
    have hS : MeasurableSet {d : V3 ℝ | -1 < sp.geom.p.z ∧ d.z < 0} := (MeasurableSet.const _).inter (measurableSet_lt measurable_z measurable_const)
    exact Measurable.ite (measurable_meets _) measurable_const (Measurable.ite hS hL' measurable_const)

/-- C82, in a concrete scene: with paths of at least three vertices the average image of the floor, in every mode, is albedo / π times the irradiance from the lamp at the point seen. -/
theorem C82_example_lamp (i : Fin 3) (mode : Mode) (pixel : Bool) (k : ℕ) (dir : ℝ × ℝ → V3 ℝ) (hdir : ∀ q, primaryRay exCam q.1 q.2 = some (dir q)) (H : ℝ × ℝ → ℝ≥0∞) (hH : Measurable H) (u : RaySampleU) (uc : ℝ) (rs : ℕ → Rnd) :
    average (k + 2) 1 rs (fun rs' => measured i H (ptSample exLamp exLampQ ⟨mode, pixel, k + 3⟩ u uc rs')) = ∫⁻ q, H q * lampLit (atHeight (-1) 0 (dir q)).x (atHeight (-1) 0 (dir q)).y ∂uniform2 := by
  have hz : ∀ q, (dir q).z < 0 := fun q => by
    obtain ⟨d, e, _, ht⟩ := C47_primary exCam exCam_proper q.1 q.2
    rw [hdir q] at e; cases e
    have := (towards_eye exCam exCam_proper (dir q) q.1 q.2 ht).1
    simpa [toEye, exCam, V3.dot] using this
  have hcam : exLamp.st.camera = some 3 := rfl
  have hl : ∀ sp wi, Vertex exLamp exLampQ 3 exCam sp wi → ∀ j < exLamp.st.lights.length, LightAt exLampQ ((fun _ => 1 : ℕ → Int) j) ((fun _ => 1 : ℕ → Aff ℝ) j) sp ((fun _ => area (fun _ => false) 0 (V3.all 1) [lampTri] : ℕ → Light) j) :=
    fun sp wi hv _ _ => exLamp_light sp wi hv
  have h := C82_lamps exLamp_regular hcam exLamp_table hl exLamp_all i (fun k sp _ _ => exLamp_measurable i k sp) ⟨mode, pixel, k + 3⟩ dir hdir H hH u uc rs
  rw [show (⟨mode, pixel, k + 3⟩ : Cfg).maxVerts - 1 = k + 2 from rfl] at h
  rw [h]
  refine lintegral_congr fun q => ?_
  congr 1
  rw [lamp_incoming i (k + 1), if_neg (fun hm => lt_asymm (hz q) hm.2.1), if_pos ⟨by simp [camVertex, makeDegenerated, exCam], hz q⟩, floor_reflects _ _ _ _ _ (by simpa using hz q), if_neg (by omega)]
  rfl

end LM.Transport
