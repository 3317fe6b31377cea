import Verif.Props.C101_Scene
import Verif.Props.C85_Example
import Verif.Props.C100_Example
/-
  C101: a concrete scene: a point light of intensity 1 at height h on the z axis inside a medium that scatters isotropically, no surfaces, and a camera at the origin.
-/
namespace LM.Transport
open MeasureTheory LM LM.Surface LM.Material LM.Light LM.MathF LM.Path LM.Render LM.Solid LM.Bound LM.Volume LM.Tracking
open scoped ENNReal

/-- The light (node 1), the camera (node 2) and a medium (node 3) with isotropic scattering. -/
noncomputable def exMist (h : ℝ) : World where
  st := Scene.buildLights (Scene.run (fun _ => false) Scene.reset exFogOps) [(0, 1), (1, 1), (2, 1), (3, 1)]
  light _ := bulb h
  material _ := diffuse (fun _ => V3.all 1)
  phase _ := isotropic
  camera _ := exCam
  junk := 0

/-- No surfaces. -/
noncomputable def exMistQ : Query where
  isect _ _ := none
  visible _ _ := true

noncomputable def mistSrc (h : ℝ) (_ : ℕ) : Source := .point (V3.all 1) ⟨0, 0, h⟩ 0

theorem mist_one (h : ℝ) : (exMist h).st.lights.length = 1 := rfl

theorem mist_table (h : ℝ) : LightTable (exMist h) (fun _ => 1) (fun _ => 1) (fun _ => bulb h) := by
  refine ⟨by rw [mist_one]; exact one_pos, fun j hj => ?_, fun j hj => ?_, fun j hj => ?_⟩ <;>
  · rw [mist_one, Nat.lt_one_iff] at hj
    subst hj
    rfl

theorem mist_regular (h : ℝ) : Regular (exMist h) exMistQ 2 exCam exComps where
  camera := rfl
  proper := exCam_proper
  single := rfl
  surface o d h hd e hf := by cases e
  infinite o d h hd e hf := by cases e

theorem mist_vertex {h : ℝ} {sp : SI} {wi : V3 ℝ} (hv : FogVertex (exMist h) exMistQ 2 exCam 3 sp wi) : (sp = camVertex (exMist h) 2 exCam ∧ wi = 0) ∨ ∃ p d, V3.dot d d = 1 ∧ sp = mediumVertex (exMist h) 3 p ∧ wi = -d := by
  rcases hv with (hv | ⟨o, d, hd, e, hf, _⟩) | hv
  · exact .inl hv
  · cases e
  · exact .inr hv

section
variable {F : Fog} (h : ℝ) (i : Fin 3)

/-- A medium of this scene whose extinction and albedo are measurable. -/
structure InMist (h : ℝ) (F : Fog) : Prop where
  vertex : F.vertex = mediumVertex (exMist h) 3
  extinction : Measurable F.extinction
  albedo : Measurable F.albedo

/-- What arrives at p from the light through the medium, scattered in any direction. -/
noncomputable def mistLit (F : Fog) (h : ℝ) (p : V3 ℝ) : ℝ≥0∞ :=
  ENNReal.ofReal (1 / (4 * Real.pi)) * ENNReal.ofReal (1 / V3.dot (⟨0, 0, h⟩ - p) (⟨0, 0, h⟩ - p) * transmittance F.bound (fun t => F.extinction (p + t • ((1 / Real.sqrt (V3.dot (⟨0, 0, h⟩ - p) (⟨0, 0, h⟩ - p))) • (⟨0, 0, h⟩ - p)))) p
    ((1 / Real.sqrt (V3.dot (⟨0, 0, h⟩ - p) (⟨0, 0, h⟩ - p))) • (⟨0, 0, h⟩ - p)) 0 (Real.sqrt (V3.dot (⟨0, 0, h⟩ - p) (⟨0, 0, h⟩ - p))))

theorem measurable_towards (a : V3 ℝ) : Measurable fun p : V3 ℝ => V3.dot (a - p) (a - p) := by
  simp only [V3.dot, V3.sub_x, V3.sub_y, V3.sub_z]
  exact ((((measurable_const.sub measurable_x).mul (measurable_const.sub measurable_x)).add ((measurable_const.sub measurable_y).mul (measurable_const.sub measurable_y))).add ((measurable_const.sub measurable_z).mul (measurable_const.sub measurable_z)))

theorem mistLit_measurable (hF : InMist h F) : Measurable (mistLit F h) := by
  have h1 := measurable_towards ⟨0, 0, h⟩
  have h2 : Measurable fun p : V3 ℝ => Real.sqrt (V3.dot (⟨0, 0, h⟩ - p) (⟨0, 0, h⟩ - p)) := h1.sqrt
  have h3 : Measurable fun p : V3 ℝ => (⟨0, 0, h⟩ : V3 ℝ) - p := measurable_mk (measurable_const.sub measurable_x) (measurable_const.sub measurable_y) (measurable_const.sub measurable_z)
  have h4 : Measurable fun p : V3 ℝ => (1 / Real.sqrt (V3.dot (⟨0, 0, h⟩ - p) (⟨0, 0, h⟩ - p))) • ((⟨0, 0, h⟩ : V3 ℝ) - p) := measurable_smul3 (measurable_const.div h2) h3
  have h5 := (measurable_transmittance F.bound F.extinction hF.extinction).comp (measurable_id.prodMk (h4.prodMk h2))
  exact (((measurable_const.div h1).mul h5).ennreal_ofReal).const_mul _

theorem mist_scatter (p wi : V3 ℝ) : scattered (exMist h) i (mediumVertex (exMist h) 3 p) wi 0 = solidAngle.withDensity fun _ => ENNReal.ofReal (1 / (4 * Real.pi)) := by
  have hp : (exMist h).phaseAt 3 = some isotropic := rfl
  rw [phase_scatter hp]
  congr 1
  funext d
  simp only [isotropic, Solid.value, chan_all]

theorem mist_glow (p wi : V3 ℝ) : fogGlow (exMist h) exMistQ F i (fun _ => 1) (mistSrc h) (mediumVertex (exMist h) 3 p) wi 0 = mistLit F h p := by
  have hp : (exMist h).phaseAt 3 = some isotropic := rfl
  have hv : ∀ d, Solid.value i (evalContrbDirection (exMist h) (mediumVertex (exMist h) 3 p) wi d 0 .EL false) = ENNReal.ofReal (1 / (4 * Real.pi)) := fun d => by
    simp only [evalContrbDirection, mediumVertex, hp, Option.bind_some]
    simp only [isotropic, Solid.value, chan_all]
  unfold fogGlow
  rw [if_pos (show isSpecularComponent (exMist h) (mediumVertex (exMist h) 3 p) 0 = some false from rfl)]
  simp_rw [hv]
  rw [lintegral_const, mist_one]
  unfold mistLit
  congr 1
  rw [shineThrough, Finset.sum_range_one]
  simp only [mistSrc, Source.shine, exMistQ, if_true]
  rw [Measure.smul_apply, Measure.dirac_apply' _ MeasurableSet.univ, Set.indicator_of_mem (Set.mem_univ _), Pi.one_apply, smul_eq_mul, mul_one]
  have e1 : chan i ((1 / V3.dot ((⟨0, 0, h⟩ : V3 ℝ) - p) (⟨0, 0, h⟩ - p)) • V3.all (1 : ℝ)) = 1 / V3.dot ((⟨0, 0, h⟩ : V3 ℝ) - p) (⟨0, 0, h⟩ - p) := by fin_cases i <;> simp [chan, V3.all]
  have e2 : ∀ d, cosineAt (mediumVertex (exMist h) 3 p).geom d = 1 := fun d => rfl
  simp only [mediumVertex, makeDegenerated, cosineAt, reach, if_true] at e1 ⊢
  rw [e1, mul_one]
  rfl

/-- The radiance depends on the vertex only through its position. -/
theorem mist_position (F : Fog) (S : Optics) (glow : SI → V3 ℝ → ℕ → ℝ≥0∞) (k : ℕ) (sp sp' : SI) (e : sp.geom.p = sp'.geom.p) (d : V3 ℝ) : F.lit S glow k sp d = F.lit S glow k sp' d := by
  cases k with
  | zero => rfl
  | succ k => simp only [Fog.lit, e]

noncomputable abbrev mistRadiance (h : ℝ) (F : Fog) (i : Fin 3) : ℕ → SI → V3 ℝ → ℝ≥0∞ := radianceThrough (exMist h) exMistQ F i exComps (fun _ => 1) (mistSrc h)

theorem mist_radiance (hF : InMist h F) (k : ℕ) (sp : SI) (d : V3 ℝ) : mistRadiance h F i (k + 1) sp d =
    radiance F.bound (fun t => F.extinction (sp.geom.p + t • d)) (fun t => F.albedo (sp.geom.p + t • d)) sp.geom.p d 0 Surface.Inf
      (fun p => ENNReal.ofReal (1 / (4 * Real.pi)) * ∫⁻ d', mistRadiance h F i k (mediumVertex (exMist h) 3 p) d' ∂solidAngle + if k = 0 then 0 else mistLit F h p) 0 := by
  have e0 : ∀ p', F.vertex p' = mediumVertex (exMist h) 3 p' := fun p' => by rw [hF.vertex]
  have e1 : ∀ p', ∑ c ∈ (optics (exMist h) exMistQ i exComps).comps (F.vertex p') (-d), (∫⁻ d', mistRadiance h F i k (F.vertex p') d' ∂(optics (exMist h) exMistQ i exComps).scatter (F.vertex p') (-d) c +
        if k = 0 then 0 else fogGlow (exMist h) exMistQ F i (fun _ => 1) (mistSrc h) (F.vertex p') (-d) c) =
      ENNReal.ofReal (1 / (4 * Real.pi)) * ∫⁻ d', mistRadiance h F i k (mediumVertex (exMist h) 3 p') d' ∂solidAngle + if k = 0 then 0 else mistLit F h p' := fun p' => by
    rw [e0]
    show ∑ c ∈ {0}, (∫⁻ d', mistRadiance h F i k (mediumVertex (exMist h) 3 p') d' ∂scattered (exMist h) i (mediumVertex (exMist h) 3 p') (-d) c + _) = _
    rw [Finset.sum_singleton, mist_scatter, withDensity_const, lintegral_smul_measure, smul_eq_mul, mist_glow]
  show Fog.lit _ _ _ _ _ _ = _
  rw [Fog.lit]
  simp only [mistRadiance, radianceThrough] at e1
  simp_rw [e1]
  rfl

theorem mist_measurable (hF : InMist h F) (k : ℕ) : Measurable fun x : V3 ℝ × V3 ℝ => mistRadiance h F i k (mediumVertex (exMist h) 3 x.1) x.2 := by
  induction k with
  | zero => exact measurable_const
  | succ k ih =>
    simp_rw [mist_radiance h i hF]
    refine measurable_radiance F.bound F.extinction F.albedo hF.extinction hF.albedo Surface.Inf (fun p => ENNReal.ofReal (1 / (4 * Real.pi)) * ∫⁻ d', mistRadiance h F i k (mediumVertex (exMist h) 3 p) d' ∂solidAngle + if k = 0 then 0 else mistLit F h p) ?_ 0
    have h1 : Measurable fun p : V3 ℝ => ∫⁻ d', mistRadiance h F i k (mediumVertex (exMist h) 3 p) d' ∂solidAngle := Measurable.lintegral_prod_right' ih
    refine (h1.const_mul _).add ?_
    split
    · exact measurable_const
    · exact mistLit_measurable h hF

theorem mist_at (hF : InMist h F) (k : ℕ) (sp : SI) : Measurable (mistRadiance h F i k sp) := by
  have e : mistRadiance h F i k sp = fun d => mistRadiance h F i k (mediumVertex (exMist h) 3 sp.geom.p) d := funext fun d => mist_position F _ _ k sp (mediumVertex (exMist h) 3 sp.geom.p) rfl d
  rw [e]
  exact (mist_measurable h i hF k).comp (measurable_const.prodMk measurable_id)

theorem mist_dark (F : Fog) (hF : InMist h F) (k : ℕ) (sp : SI) (d : V3 ℝ) : F.incoming (optics (exMist h) exMistQ i exComps) k sp d = 0 := by
  induction k generalizing sp d with
  | zero => rfl
  | succ k ih =>
    rw [Fog.incoming]
    simp only [ih, lintegral_zero, Finset.sum_const_zero]
    unfold Fog.through radiance
    simp only [mul_zero, lintegral_zero, zero_add]
    have e : (optics (exMist h) exMistQ i exComps).isect sp.geom.p d = none := rfl
    rw [e]
    simp

/-! ### The scene meets the requirements -/

theorem mist_foggy (hF : InMist h F) {Ω : Type} [MeasurableSpace Ω] {μ : Measure Ω} [IsProbabilityMeasure μ] {md : Ω → V3 ℝ → V3 ℝ → ℝ → ℝ → DistRes} {mt : Ω → V3 ℝ → V3 ℝ → ℝ → ℝ → Option (V3 ℝ)} (hM : MediumOk μ i F md mt) :
    Foggy μ (exMist h) exMistQ 2 exCam 3 exComps i F md mt where
  regular := mist_regular h
  camera := rfl
  node := rfl
  phase := ⟨isotropic, rfl, isotropic_ok⟩
  vertex := hF.vertex
  medium := hM
  single _ _ := rfl
  kind o d h e := by cases e
  clear sp wi hv c hc := by
    rcases hv with ⟨rfl, rfl⟩ | ⟨o, d, hd, e, hf, _⟩
    · have hc : c ∈ ({0} : Finset ℕ) := hc
      rw [Finset.mem_singleton] at hc
      subst hc
      exact camera_clear rfl exCam_proper F.bound
    · cases e
  measurable k sp wi hv := by
    have e : F.incoming (optics (exMist h) exMistQ i exComps) k sp = fun _ => 0 := funext fun d => mist_dark h i F hF k sp d
    rw [e]; exact measurable_const
  scattering k d hd := by
    have e : ∀ sp, F.incoming (optics (exMist h) exMistQ i exComps) k sp = fun _ => 0 := fun sp => funext fun d => mist_dark h i F hF k sp d
    have e : ∀ p, F.scattering (optics (exMist h) exMistQ i exComps) k d (mediumVertex (exMist h) 3 p) = 0 := fun p => by
      unfold Fog.scattering
      simp [e]
    simp_rw [e]
    exact measurable_const

theorem mist_lit (hF : InMist h F) (h0 : h ≠ 0) (hp : OffPlanes F.bound ⟨0, 0, h⟩) {Ω : Type} [MeasurableSpace Ω] {μ : Measure Ω} [IsProbabilityMeasure μ] {md : Ω → V3 ℝ → V3 ℝ → ℝ → ℝ → DistRes} {mt : Ω → V3 ℝ → V3 ℝ → ℝ → ℝ → Option (V3 ℝ)} (hM : MediumOk μ i F md mt)
    (ha : Avoids μ F.bound md ⟨0, 0, h⟩) : FoggyLit μ (exMist h) exMistQ 2 exCam 3 exComps i F md mt (fun _ => 1) (fun _ => 1) (fun _ => bulb h) (mistSrc h) where
  foggy := mist_foggy h i hF hM
  table := mist_table h
  off o d hit _ e := by cases e
  camera j hj I p junk e := by
    cases e
    intro e
    exact h0 (congrArg V3.z e).symm
  avoids j hj I p junk e := by
    cases e
    exact ha
  lights sp wi hv := by
    have hfin : sp.geom.infinite = false := by rcases mist_vertex hv.1 with ⟨rfl, _⟩ | ⟨p, d, _, rfl, _⟩ <;> rfl
    have hne : sp.geom.p ≠ ⟨0, 0, h⟩ := hv.2 0 (by rw [mist_one]; exact one_pos) _ _ _ rfl
    refine ⟨⟨fun j hj => ⟨rfl, one_nonneg, hfin, hne, fun o d s e => by cases e⟩, fun d s e => (by cases e), ?_⟩, fun j hj e => (by cases e), fun j hj b e => point_clear hp _ _ _ hne b e, ?_⟩
    · have : lightPdf (exMist h) exMistQ sp = fun _ => 0 := funext fun d => rfl
      rw [this]; exact measurable_const
    · have : Measurable fun d : V3 ℝ => transmittance F.bound (fun t => F.extinction (sp.geom.p + t • d)) sp.geom.p d 0 Surface.Inf := (measurable_transmittance F.bound F.extinction hF.extinction).comp (measurable_const.prodMk (measurable_id.prodMk measurable_const))
      exact this.ennreal_ofReal
  measurable k sp wi hv := mist_at h i hF k sp
  scattering k d hd := by
    have e : ∀ p, (optics (exMist h) exMistQ i exComps).scatteringOf (fun sp wi c => ∫⁻ d', mistRadiance h F i k sp d' ∂scattered (exMist h) i sp wi c + if k = 0 then 0 else fogGlow (exMist h) exMistQ F i (fun _ => 1) (mistSrc h) sp wi c) d (mediumVertex (exMist h) 3 p) =
        ENNReal.ofReal (1 / (4 * Real.pi)) * ∫⁻ d', mistRadiance h F i k (mediumVertex (exMist h) 3 p) d' ∂solidAngle + if k = 0 then 0 else mistLit F h p := fun p => by
      unfold Optics.scatteringOf
      rw [if_neg (by simp [mediumVertex, makeDegenerated])]
      show ∑ c ∈ {0}, (∫⁻ d', mistRadiance h F i k (mediumVertex (exMist h) 3 p) d' ∂scattered (exMist h) i (mediumVertex (exMist h) 3 p) (-d) c + _) = _
      rw [Finset.sum_singleton, mist_scatter, withDensity_const, lintegral_smul_measure, smul_eq_mul, mist_glow]
    simp_rw [e]
    refine ((Measurable.lintegral_prod_right' (mist_measurable h i hF k)).const_mul _).add ?_
    split
    · exact measurable_const
    · exact mistLit_measurable h hF

end

/-! ### Single scattering -/

/-- Between two points of the box, the whole segment is inside. -/
theorem wide_segment (h : ℝ) (hh : |h| ≤ Surface.Inf) (p : V3 ℝ) (hx : |p.x| ≤ Surface.Inf) (hy : |p.y| ≤ Surface.Inf) (hz : |p.z| ≤ Surface.Inf) (r : ℝ) (hr : 0 < r) :
    inside wide p ((1 / r) • (⟨0, 0, h⟩ - p)) 0 r = Set.Icc 0 r := by
  ext t
  simp only [inside, Set.mem_ofPred_eq, Set.mem_Icc, wide, V3.all, V3.smul_x, V3.smul_y, V3.smul_z, V3.sub_x, V3.sub_y, V3.sub_z]
  constructor
  · exact fun h => ⟨h.1, h.2.1⟩
  · rintro ⟨h0, h1⟩
    have key : ∀ a b : ℝ, |a| ≤ Surface.Inf → |b| ≤ Surface.Inf → -Surface.Inf ≤ b + t * (1 / r * (a - b)) ∧ b + t * (1 / r * (a - b)) ≤ Surface.Inf := fun a b ha hb => by
      have ha := abs_le.mp ha
      have hb := abs_le.mp hb
      have e : b + t * (1 / r * (a - b)) = (1 - t / r) * b + t / r * a := by field_simp; ring
      have s0 : 0 ≤ t / r := div_nonneg h0 hr.le
      have s1 : t / r ≤ 1 := (div_le_one hr).mpr h1
      rw [e]
      constructor <;> nlinarith
    have hI : (0 : ℝ) ≤ Surface.Inf := by unfold Surface.Inf; norm_num
    exact ⟨h0, h1, key 0 _ (by simpa using hI) hx, key 0 _ (by simpa using hI) hy, key h _ hh hz⟩

theorem wide_inside_to (d : V3 ℝ) (hd : V3.dot d d = 1) (r : ℝ) (hr : r ≤ Surface.Inf) : inside wide 0 d 0 r = Set.Icc 0 r := by
  have h := wide_inside d hd
  ext t
  have ht := Set.ext_iff.mp h t
  simp only [inside, Set.mem_ofPred_eq, Set.mem_Icc] at ht ⊢
  constructor
  · exact fun h => ⟨h.1, h.2.1⟩
  · exact fun h => ⟨h.1, h.2, (ht.mpr ⟨h.1, h.2.trans hr⟩).2.2⟩

/-- Single scattering of a point light of intensity 1 at height h along the ray from the origin in direction d, in a homogeneous medium of density s and albedo a: at the point t d, light of intensity 1 over the square
    of the distance to the light, attenuated over that distance and over t. -/
noncomputable def singleScattering (h s a : ℝ) (d : V3 ℝ) : ℝ≥0∞ :=
  ∫⁻ t in Set.Icc 0 Surface.Inf, ENNReal.ofReal (s * Real.exp (-(s * t)) * a * (1 / (4 * Real.pi) *
    (1 / V3.dot (⟨0, 0, h⟩ - t • d) (⟨0, 0, h⟩ - t • d) * Real.exp (-(s * Real.sqrt (V3.dot (⟨0, 0, h⟩ - t • d) (⟨0, 0, h⟩ - t • d)))))))

theorem even_transmittance (b : Box ℝ) (s : ℝ) (o d : V3 ℝ) (r : ℝ) (hr : 0 ≤ r) (hi : inside b o d 0 r = Set.Icc 0 r) : transmittance b (fun _ => s) o d 0 r = Real.exp (-(s * r)) := by
  unfold transmittance
  rw [hi, setIntegral_const]
  simp only [Measure.real, Real.volume_Icc, sub_zero, smul_eq_mul, ENNReal.toReal_ofReal hr, mul_comm]

theorem mist_single (i : Fin 3) (h : ℝ) (hh : |h| < Surface.Inf) (s a : ℝ) (hs : 0 ≤ s) (ha : 0 ≤ a) (d : V3 ℝ) (hd : V3.dot d d = 1) :
    mistRadiance h (evenFog (exMist h) 3 wide s (V3.all a) i) i 2 (camVertex (exMist h) 2 exCam) d = singleScattering h s a d := by
  have hI : 0 < Surface.Inf := by unfold Surface.Inf; norm_num
  have hF : InMist h (evenFog (exMist h) 3 wide s (V3.all a) i) := ⟨rfl, measurable_const, measurable_const⟩
  have hch : chan i (V3.all a) = a := chan_all i a
  have h1 : ∀ sp d, mistRadiance h (evenFog (exMist h) 3 wide s (V3.all a) i) i 1 sp d = 0 := fun sp d => by
    rw [mist_radiance h i hF 0]
    unfold radiance
    have : ∀ sp, mistRadiance h (evenFog (exMist h) 3 wide s (V3.all a) i) i 0 sp = fun _ => 0 := fun _ => rfl
    simp [this]
  rw [mist_radiance h i hF 1]
  unfold radiance singleScattering
  simp only [h1, lintegral_zero, mul_zero, zero_add, add_zero, one_ne_zero, if_false]
  have hp : (camVertex (exMist h) 2 exCam).geom.p = 0 := rfl
  rw [hp]
  simp only [evenFog, hch]
  rw [wide_inside d hd]
  refine setLIntegral_congr_fun measurableSet_Icc fun t ht => ?_
  beta_reduce
  rw [even_transmittance wide s 0 d t ht.1 (wide_inside_to d hd t ht.2), zero_add]
  have key : ∀ x : ℝ, x * x ≤ 1 → |t * x| ≤ Surface.Inf := fun x hx => by
    have hx' := abs_le_one_iff_mul_self_le_one.mpr hx
    rw [abs_mul, abs_of_nonneg ht.1]
    nlinarith [abs_nonneg x, ht.1, ht.2]
  simp only [V3.dot] at hd
  have kx := key d.x (by nlinarith [mul_self_nonneg d.y, mul_self_nonneg d.z])
  have ky := key d.y (by nlinarith [mul_self_nonneg d.x, mul_self_nonneg d.z])
  have kz := key d.z (by nlinarith [mul_self_nonneg d.y, mul_self_nonneg d.x])
  have h4 : (0 : ℝ) ≤ 1 / (4 * Real.pi) := by positivity
  have hE : 0 ≤ s * Real.exp (-(s * t)) * a := mul_nonneg (mul_nonneg hs (Real.exp_pos _).le) ha
  unfold mistLit
  simp only
  rw [← ENNReal.ofReal_mul h4, ← ENNReal.ofReal_mul hE]
  rcases eq_or_lt_of_le (Real.sqrt_nonneg (V3.dot ((⟨0, 0, h⟩ : V3 ℝ) - t • d) (⟨0, 0, h⟩ - t • d))) with e | e
  · have e0 : V3.dot ((⟨0, 0, h⟩ : V3 ℝ) - t • d) (⟨0, 0, h⟩ - t • d) = 0 := by
      by_contra hne
      exact absurd e (Real.sqrt_pos.mpr (Surface.dot_self_pos hne)).ne
    rw [e0]
    simp
  · rw [even_transmittance wide s _ _ _ e.le (wide_segment h hh.le (t • d) kx ky kz _ e)]

/-- C101, in a concrete scene: a homogeneous medium. With paths of up to three vertices, the average of a pixel is the single scattering of the point light along the primary rays. -/
theorem C101_example (i : Fin 3) (nz : V3 ℝ → Bool × Bool × Bool) (h : ℝ) (h0 : h ≠ 0) (hh : |h| < Surface.Inf) (s a : ℝ) (hs : 0 ≤ s) (ha : 0 ≤ a) (dir : ℝ × ℝ → V3 ℝ) (hdir : ∀ q, primaryRay exCam q.1 q.2 = some (dir q)) (q0 : ℝ) (hq0 : 0 ≤ q0) (hq1 : q0 < 1)
    (H : ℝ × ℝ → ℝ≥0∞) (hH : Measurable H) (hHf : ∀ q, H q ≠ ⊤) (u : RaySampleU) (uc : ℝ) (rs : ℕ → Rnd) (ms : ℕ → ℝ × ℝ) :
    averageVol uniform1 2 1 rs ms (fun rs' ms' => measured i H (volSample (exMist h) (volQuery (fogDist (exMist h) exMistQ (evenDist wide s (V3.all a) nz)) (fogTr (exMist h) exMistQ (evenTr wide s nz)) ms') false q0 3 u uc rs')) =
      ∫⁻ q, H q * singleScattering h s a (dir q) ∂uniform2 := by
  have hz := abs_lt.mp hh
  have hI : 0 < Surface.Inf := by unfold Surface.Inf; norm_num
  have hF : InMist h (evenFog (exMist h) 3 wide s (V3.all a) i) := ⟨rfl, measurable_const, measurable_const⟩
  have hoff : OffPlanes wide ⟨0, 0, h⟩ := by
    refine ⟨⟨?_, ?_⟩, ⟨?_, ?_⟩, ⟨?_, ?_⟩⟩
    · show (0 : ℝ) ≠ -Surface.Inf; linarith
    · show (0 : ℝ) ≠ Surface.Inf; linarith
    · show (0 : ℝ) ≠ -Surface.Inf; linarith
    · show (0 : ℝ) ≠ Surface.Inf; linarith
    · show h ≠ -Surface.Inf; linarith
    · show h ≠ Surface.Inf; linarith
  have hM := even_ok (exMist h) 3 wide s hs (V3.all a) ⟨ha, ha, ha⟩ nz i
  have hS := C101_scene (mist_lit h i hF h0 hoff hM (even_avoids _ _ hs _ _ _)) dir hdir q0 hq0 hq1 3 H hH hHf u uc rs ms
  rw [show 3 - 1 = 2 from rfl] at hS
  rw [hS]
  refine lintegral_congr fun q => ?_
  congr 1
  obtain ⟨d, h1, h2, _⟩ := C47_primary exCam exCam_proper q.1 q.2
  rw [hdir q] at h1
  cases h1
  exact mist_single i h hh s a hs ha _ h2

/-- The light can be seen: single scattering is positive in every direction away from the light. -/
theorem single_pos (d : V3 ℝ) (hd : V3.dot d d = 1) (hz : d.z < 0) : ENNReal.ofReal (Real.exp (-1) * (1 / (4 * Real.pi) * (1 / 4 * Real.exp (-2)))) ≤ singleScattering 1 1 1 d := by
  have hI : (1 : ℝ) < Surface.Inf := by unfold Surface.Inf; norm_num
  have h1 : ∫⁻ _ in Set.Icc (0 : ℝ) 1, ENNReal.ofReal (Real.exp (-1) * (1 / (4 * Real.pi) * (1 / 4 * Real.exp (-2)))) = ENNReal.ofReal (Real.exp (-1) * (1 / (4 * Real.pi) * (1 / 4 * Real.exp (-2)))) := by simp
  rw [← h1]
  unfold singleScattering
  refine le_trans (setLIntegral_mono' measurableSet_Icc fun t ht => ENNReal.ofReal_le_ofReal ?_) (lintegral_mono_set (Set.Icc_subset_Icc le_rfl hI.le))
  have e : V3.dot ((⟨0, 0, 1⟩ : V3 ℝ) - t • d) (⟨0, 0, 1⟩ - t • d) = 1 - 2 * t * d.z + t ^ 2 := by
    simp only [V3.dot] at hd
    simp only [V3.dot, V3.sub_x, V3.sub_y, V3.sub_z, V3.smul_x, V3.smul_y, V3.smul_z]
    linear_combination t ^ 2 * hd
  have hz1 : -1 ≤ d.z := by
    simp only [V3.dot] at hd
    nlinarith [mul_self_nonneg d.x, mul_self_nonneg d.y]
  rw [e]
  have hp : 0 < 1 - 2 * t * d.z + t ^ 2 := by nlinarith [ht.1, mul_nonneg ht.1 (neg_nonneg.mpr hz.le)]
  have h4 : 1 - 2 * t * d.z + t ^ 2 ≤ 4 := by nlinarith [ht.1, ht.2, mul_nonneg ht.1 (neg_nonneg.mpr hz.le)]
  have hs : Real.sqrt (1 - 2 * t * d.z + t ^ 2) ≤ 2 := by
    rw [Real.sqrt_le_left (by norm_num)]
    linarith
  simp only [one_mul, mul_one]
  have a1 : Real.exp (-1) ≤ Real.exp (-t) := Real.exp_le_exp.mpr (by linarith [ht.2])
  have a2 : Real.exp (-2) ≤ Real.exp (-Real.sqrt (1 - 2 * t * d.z + t ^ 2)) := Real.exp_le_exp.mpr (by linarith)
  have a3 : (1 : ℝ) / 4 ≤ 1 / (1 - 2 * t * d.z + t ^ 2) := one_div_le_one_div_of_le hp h4
  have h5 : (0 : ℝ) ≤ 1 / (4 * Real.pi) := by positivity
  exact mul_le_mul a1 (mul_le_mul_of_nonneg_left (mul_le_mul a3 a2 (Real.exp_pos _).le (one_div_pos.mpr hp).le) h5) (by positivity) (Real.exp_pos _).le

/-- C101: without light sampling the same scene is black: the point light is never met. -/
theorem C101_naive_black (i : Fin 3) (nz : V3 ℝ → Bool × Bool × Bool) (q0 : ℝ) (hq0 : 0 ≤ q0) (hq1 : q0 < 1) (u : RaySampleU) (uc : ℝ) (rs : ℕ → Rnd) (ms : ℕ → ℝ × ℝ) :
    averageVol uniform1 2 1 rs ms (fun rs' ms' => measured i (fun _ => 1) (volSample (exMist 1) (volQuery (fogDist (exMist 1) exMistQ (evenDist wide 1 (V3.all 1) nz)) (fogTr (exMist 1) exMistQ (evenTr wide 1 nz)) ms') true q0 3 u uc rs')) = 0 ∧
    0 < averageVol uniform1 2 1 rs ms (fun rs' ms' => measured i (fun _ => 1) (volSample (exMist 1) (volQuery (fogDist (exMist 1) exMistQ (evenDist wide 1 (V3.all 1) nz)) (fogTr (exMist 1) exMistQ (evenTr wide 1 nz)) ms') false q0 3 u uc rs')) := by
  have hI : 1 < Surface.Inf := by unfold Surface.Inf; norm_num
  have hF : InMist 1 (evenFog (exMist 1) 3 wide 1 (V3.all 1) i) := ⟨rfl, measurable_const, measurable_const⟩
  choose dir hdir using fun q : ℝ × ℝ => (C47_primary exCam exCam_proper q.1 q.2)
  constructor
  · have h := C101_naive (mist_foggy 1 i hF (even_ok (exMist 1) 3 wide 1 zero_le_one (V3.all 1) one_nonneg nz i)) dir (fun q => (hdir q).1) q0 hq0 hq1 3 (fun _ => 1) measurable_const (fun _ => ENNReal.one_ne_top) u uc rs ms
    rw [show 3 - 1 = 2 from rfl] at h
    rw [h]
    simp [mist_dark 1 i _ hF]
  · rw [C101_example i nz 1 one_ne_zero (by rw [abs_one]; exact hI) 1 1 zero_le_one zero_le_one dir (fun q => (hdir q).1) q0 hq0 hq1 _ measurable_const (fun _ => ENNReal.one_ne_top) u uc rs ms]
    simp only [one_mul]
    refine lt_of_lt_of_le ?_ (lintegral_mono fun q => single_pos (dir q) (hdir q).2.1 (lit_down q dir fun q => (hdir q).1))
    rw [int2_const]
    exact ENNReal.ofReal_pos.mpr (by positivity)

/-- A heterogeneous medium meets the requirements too: the ball of fog around the camera, with the light inside. -/
example (i : Fin 3) (nz : V3 ℝ → Bool × Bool × Bool) (albedo : Vol) (ha : ∀ p, albedo.evalColor p = some (V3.all (1 / 2))) :
    FoggyLit uniforms (exMist (1 / 2)) exMistQ 2 exCam 3 exComps i (cloud (exMist (1 / 2)) 3 ball.bound (fun p => (2 : ℝ) * if Real.sqrt (V3.dot (0 - p) (0 - p)) < 1 then 1 else 0) (fun _ => V3.all (1 / 2)) i)
      (cloudDist ball albedo nz) (cloudTr ball nz) (fun _ => 1) (fun _ => 1) (fun _ => bulb (1 / 2)) (mistSrc (1 / 2)) := by
  have hb := (C84_library ball (.sphere _ _ _ _ _ zero_le_two ball_made)).1
  have hE : (0 : ℝ) < Eps := by unfold Surface.Eps; norm_num
  have hM := cloud_ok (exMist (1 / 2)) 3 ball albedo hb (by simp [ball]) _ ball_measurable ball_value (fun _ => V3.all (1 / 2)) measurable_const (fun _ => ⟨by norm_num [V3.all], by norm_num [V3.all], by norm_num [V3.all]⟩) ha nz i
  refine mist_lit (1 / 2) i ⟨rfl, ball_measurable, measurable_const⟩ (by norm_num) ?_ hM (cloud_avoids ball albedo hb (by simp [ball]) _ ball_measurable ball_value nz _)
  simp only [OffPlanes, cloud, ball, Volume.sphereBound, V3.sub_x, V3.sub_y, V3.sub_z, V3.add_x, V3.add_y, V3.add_z, V3.zero_x, V3.zero_y, V3.zero_z, V3.all]
  refine ⟨⟨?_, ?_⟩, ⟨?_, ?_⟩, ⟨?_, ?_⟩⟩ <;> intro e <;> linarith

end LM.Transport
