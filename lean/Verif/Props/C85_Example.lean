import Verif.Props.C85_Heterogeneous
import Verif.Props.C82_Example
/-
  C85: concrete scenes. A medium under a constant sky of radiance 1, with the camera inside.
-/
namespace LM.Transport
open MeasureTheory LM LM.Surface LM.Material LM.Light LM.MathF LM.Path LM.Render LM.Solid LM.Bound LM.Volume LM.Tracking
open scoped ENNReal

noncomputable def exFogOps : List (Scene.Op (Aff ℝ)) :=
  [.createPrimitive ⟨none, none, some 0, none, none⟩, .createPrimitive ⟨none, none, none, some 0, none⟩, .createPrimitive ⟨none, none, none, none, some 0⟩, .addChild 0 1, .addChild 0 2, .addChild 0 3]

/-- The sky (node 1), the camera (node 2) and a medium (node 3) with isotropic scattering. -/
noncomputable def exFog : World where
  st := Scene.buildLights (Scene.run (fun _ => true) Scene.reset exFogOps) [(0, 1), (1, 1), (2, 1), (3, 1)]
  light _ := envconst (fun _ => false) 0 (V3.all 1) 0 1
  material _ := diffuse (fun _ => V3.all 1)
  phase _ := isotropic
  camera _ := exCam
  junk := 0

/-- Every ray meets the sky. -/
noncomputable def exFogQ : Query where
  isect _ d := some ⟨.light, 1, makeInfinite (-d) 0 0⟩
  visible _ s2 := s2.geom.infinite

noncomputable abbrev fogOptics (i : Fin 3) : Optics := optics exFog exFogQ i exComps
noncomputable abbrev theFog (b : Box ℝ) (density : ℝ) (albedo : V3 ℝ) (i : Fin 3) : Fog := evenFog exFog 3 b density albedo i

/-- A medium of this scene whose extinction and albedo are measurable. -/
structure InScene (F : Fog) : Prop where
  vertex : F.vertex = mediumVertex exFog 3
  extinction : Measurable F.extinction
  albedo : Measurable F.albedo

section
variable {F : Fog} (i : Fin 3)

/-! ### Measurability -/

theorem measurableSet_inside (b : Box ℝ) : MeasurableSet {x : (V3 ℝ × V3 ℝ × ℝ) × ℝ | x.2 ∈ inside b x.1.1 x.1.2.1 0 x.1.2.2} := by
  have ho : Measurable fun x : (V3 ℝ × V3 ℝ × ℝ) × ℝ => x.1.1 := measurable_fst.fst
  have hd : Measurable fun x : (V3 ℝ × V3 ℝ × ℝ) × ℝ => x.1.2.1 := measurable_fst.snd.fst
  have hm : Measurable fun x : (V3 ℝ × V3 ℝ × ℝ) × ℝ => x.1.2.2 := measurable_fst.snd.snd
  have ht : Measurable fun x : (V3 ℝ × V3 ℝ × ℝ) × ℝ => x.2 := measurable_snd
  have hx : Measurable fun x : (V3 ℝ × V3 ℝ × ℝ) × ℝ => x.1.1.x + x.2 * x.1.2.1.x := (measurable_x.comp ho).add (ht.mul (measurable_x.comp hd))
  have hy : Measurable fun x : (V3 ℝ × V3 ℝ × ℝ) × ℝ => x.1.1.y + x.2 * x.1.2.1.y := (measurable_y.comp ho).add (ht.mul (measurable_y.comp hd))
  have hz : Measurable fun x : (V3 ℝ × V3 ℝ × ℝ) × ℝ => x.1.1.z + x.2 * x.1.2.1.z := (measurable_z.comp ho).add (ht.mul (measurable_z.comp hd))
  unfold inside
  exact (measurableSet_le measurable_const ht).inter ((measurableSet_le ht hm).inter
    (((measurableSet_le measurable_const hx).inter (measurableSet_le hx measurable_const)).inter
      (((measurableSet_le measurable_const hy).inter (measurableSet_le hy measurable_const)).inter ((measurableSet_le measurable_const hz).inter (measurableSet_le hz measurable_const)))))

theorem measurable_point : Measurable fun y : (V3 ℝ × V3 ℝ) × ℝ => y.1.1 + y.2 • y.1.2 := by
  refine measurable_mk ?_ ?_ ?_
  · exact (measurable_x.comp measurable_fst.fst).add (measurable_snd.mul (measurable_x.comp measurable_fst.snd))
  · exact (measurable_y.comp measurable_fst.fst).add (measurable_snd.mul (measurable_y.comp measurable_fst.snd))
  · exact (measurable_z.comp measurable_fst.fst).add (measurable_snd.mul (measurable_z.comp measurable_fst.snd))

/-- Transmittance is a measurable function of the segment. -/
theorem measurable_transmittance (b : Box ℝ) (σ : V3 ℝ → ℝ) (hσ : Measurable σ) : Measurable fun x : V3 ℝ × V3 ℝ × ℝ => transmittance b (fun t => σ (x.1 + t • x.2.1)) x.1 x.2.1 0 x.2.2 := by
  classical
  have hs := measurableSet_inside b
  have h1 : Measurable fun y : (V3 ℝ × V3 ℝ × ℝ) × ℝ => σ (y.1.1 + y.2 • y.1.2.1) := hσ.comp (measurable_point.comp ((measurable_fst.fst.prodMk measurable_fst.snd.fst).prodMk measurable_snd))
  have e : (fun x : V3 ℝ × V3 ℝ × ℝ => transmittance b (fun t => σ (x.1 + t • x.2.1)) x.1 x.2.1 0 x.2.2) = fun x => Real.exp (-∫ t, Set.indicator {x : (V3 ℝ × V3 ℝ × ℝ) × ℝ | x.2 ∈ inside b x.1.1 x.1.2.1 0 x.1.2.2} (fun y => σ (y.1.1 + y.2 • y.1.2.1)) (x, t)) := by
    funext x
    have hi : MeasurableSet (inside b x.1 x.2.1 0 x.2.2) := hs.preimage (measurable_prodMk_left (x := x))
    unfold transmittance
    rw [← integral_indicator hi]
    rfl
  rw [e]
  have h2 := ((h1.indicator hs).stronglyMeasurable.integral_prod_right' (ν := (volume : Measure ℝ))).measurable
  exact Real.measurable_exp.comp h2.neg

/-- So is the radiance, of the origin and the direction. -/
theorem measurable_radiance (b : Box ℝ) (σ a : V3 ℝ → ℝ) (hσ : Measurable σ) (ha : Measurable a) (tmax : ℝ) (L : V3 ℝ → ℝ≥0∞) (hL : Measurable L) (w : ℝ≥0∞) :
    Measurable fun x : V3 ℝ × V3 ℝ => radiance b (fun t => σ (x.1 + t • x.2)) (fun t => a (x.1 + t • x.2)) x.1 x.2 0 tmax L w := by
  classical
  unfold radiance
  have hmt := measurable_transmittance b σ hσ
  have h1 : Measurable fun y : (V3 ℝ × V3 ℝ) × ℝ => transmittance b (fun t => σ (y.1.1 + t • y.1.2)) y.1.1 y.1.2 0 y.2 := hmt.comp (measurable_fst.fst.prodMk (measurable_fst.snd.prodMk measurable_snd))
  have h2 : Measurable fun x : V3 ℝ × V3 ℝ => transmittance b (fun t => σ (x.1 + t • x.2)) x.1 x.2 0 tmax := hmt.comp (measurable_fst.prodMk (measurable_snd.prodMk measurable_const))
  have hp := measurable_point
  have hs : MeasurableSet {y : (V3 ℝ × V3 ℝ) × ℝ | y.2 ∈ inside b y.1.1 y.1.2 0 tmax} := (measurableSet_inside b).preimage (f := fun y : (V3 ℝ × V3 ℝ) × ℝ => ((y.1.1, y.1.2, tmax), y.2))
    ((measurable_fst.fst.prodMk (measurable_fst.snd.prodMk measurable_const)).prodMk measurable_snd)
  have h4 : Measurable fun y : (V3 ℝ × V3 ℝ) × ℝ => ENNReal.ofReal (σ (y.1.1 + y.2 • y.1.2) * transmittance b (fun t => σ (y.1.1 + t • y.1.2)) y.1.1 y.1.2 0 y.2 * a (y.1.1 + y.2 • y.1.2)) * L (y.1.1 + y.2 • y.1.2) :=
    (((hσ.comp hp).mul h1).mul (ha.comp hp)).ennreal_ofReal.mul (hL.comp hp)
  have e : ∀ x : V3 ℝ × V3 ℝ, ∫⁻ t in inside b x.1 x.2 0 tmax, ENNReal.ofReal (σ (x.1 + t • x.2) * transmittance b (fun t => σ (x.1 + t • x.2)) x.1 x.2 0 t * a (x.1 + t • x.2)) * L (x.1 + t • x.2) =
      ∫⁻ t, Set.indicator {y : (V3 ℝ × V3 ℝ) × ℝ | y.2 ∈ inside b y.1.1 y.1.2 0 tmax} (fun y => ENNReal.ofReal (σ (y.1.1 + y.2 • y.1.2) * transmittance b (fun t => σ (y.1.1 + t • y.1.2)) y.1.1 y.1.2 0 y.2 * a (y.1.1 + y.2 • y.1.2)) * L (y.1.1 + y.2 • y.1.2)) (x, t) := fun x => by
    have hi : MeasurableSet (inside b x.1 x.2 0 tmax) := hs.preimage (measurable_prodMk_left (x := x))
    rw [← lintegral_indicator hi]
    rfl
  have e2 := funext fun x : V3 ℝ × V3 ℝ => congrArg (· + ENNReal.ofReal (transmittance b (fun t => σ (x.1 + t • x.2)) x.1 x.2 0 tmax) * w) (e x)
  refine Eq.mpr (congrArg Measurable e2) ?_
  exact (Measurable.lintegral_prod_right' (h4.indicator hs)).add (h2.ennreal_ofReal.mul_const w)

theorem fog_light : exFog.lightAt 1 = some (envconst (fun _ => false) 0 (V3.all 1) 0 1) := rfl

theorem fog_isect (o d : V3 ℝ) (h : SI) (e : exFogQ.isect o d = some h) : h = ⟨.light, 1, makeInfinite (-d) 0 0⟩ := (Option.some.inj e).symm

theorem chan_all (i : Fin 3) (x : ℝ) : chan i (V3.all x) = x := by fin_cases i <;> rfl

/-- What is scattered in the medium: the average over all directions. -/
theorem fog_scatter (p wi : V3 ℝ) : scattered exFog i (mediumVertex exFog 3 p) wi 0 = solidAngle.withDensity fun _ => ENNReal.ofReal (1 / (4 * Real.pi)) := by
  have hp : exFog.phaseAt 3 = some isotropic := rfl
  rw [phase_scatter hp]
  congr 1
  funext d
  simp only [isotropic, Solid.value, chan_all]

/-- The radiance depends on the vertex only through its position. -/
theorem fog_position (F : Fog) (S : Optics) (k : ℕ) (sp sp' : SI) (h : sp.geom.p = sp'.geom.p) (d : V3 ℝ) : F.incoming S k sp d = F.incoming S k sp' d := by
  cases k with
  | zero => rfl
  | succ k => simp only [Fog.incoming, h]

theorem fog_incoming (hF : InScene F) (k : ℕ) (p d : V3 ℝ) : F.incoming (fogOptics i) (k + 1) (mediumVertex exFog 3 p) d =
    radiance F.bound (fun t => F.extinction (p + t • d)) (fun t => F.albedo (p + t • d)) p d 0 Surface.Inf (fun p => ENNReal.ofReal (1 / (4 * Real.pi)) * ∫⁻ d', F.incoming (fogOptics i) k (mediumVertex exFog 3 p) d' ∂solidAngle) 1 := by
  have e0 : ∀ p', F.vertex p' = mediumVertex exFog 3 p' := fun p' => by rw [hF.vertex]
  have e1 : ∀ p', ∑ c ∈ (fogOptics i).comps (F.vertex p') (-d), ∫⁻ d', F.incoming (fogOptics i) k (F.vertex p') d' ∂(fogOptics i).scatter (F.vertex p') (-d) c =
      ENNReal.ofReal (1 / (4 * Real.pi)) * ∫⁻ d', F.incoming (fogOptics i) k (mediumVertex exFog 3 p') d' ∂solidAngle := fun p' => by
    rw [e0]
    show ∑ c ∈ {0}, ∫⁻ d', F.incoming (fogOptics i) k (mediumVertex exFog 3 p') d' ∂scattered exFog i (mediumVertex exFog 3 p') (-d) c = _
    rw [Finset.sum_singleton, fog_scatter, withDensity_const, lintegral_smul_measure, smul_eq_mul]
  have e2 : (fogOptics i).emit ⟨.light, 1, makeInfinite (-d) 0 0⟩ (-d) = 1 := by
    simp only [optics, emitted, fog_light]
    simp [envconst, chan_all]
  rw [Fog.incoming]
  simp_rw [e1]
  unfold Fog.through
  have e3 : (fogOptics i).isect (mediumVertex exFog 3 p).geom.p d = some ⟨.light, 1, makeInfinite (-d) 0 0⟩ := rfl
  rw [e3]
  dsimp only
  rw [e2]
  simp only [makeInfinite, if_true, add_zero]
  rfl

instance : IsFiniteMeasure solidAngle := ⟨by rw [solidAngle_univ]; exact ENNReal.ofReal_lt_top⟩

theorem fog_measurable (hF : InScene F) (k : ℕ) : Measurable fun x : V3 ℝ × V3 ℝ => F.incoming (fogOptics i) k (mediumVertex exFog 3 x.1) x.2 := by
  induction k with
  | zero => exact measurable_const
  | succ k ih =>
    simp_rw [fog_incoming i hF]
    refine measurable_radiance F.bound F.extinction F.albedo hF.extinction hF.albedo Surface.Inf (fun p => ENNReal.ofReal (1 / (4 * Real.pi)) * ∫⁻ d', F.incoming (fogOptics i) k (mediumVertex exFog 3 p) d' ∂solidAngle) ?_ 1
    have h1 : Measurable fun p : V3 ℝ => ∫⁻ d', F.incoming (fogOptics i) k (mediumVertex exFog 3 p) d' ∂solidAngle := Measurable.lintegral_prod_right' ih
    exact h1.const_mul _

/-! ### The scene meets the requirements -/

theorem fog_regular : Regular exFog exFogQ 2 exCam exComps where
  camera := rfl
  proper := exCam_proper
  single := rfl
  surface o d h hd e hf := by rw [fog_isect o d h e] at hf; cases hf
  infinite o d h hd e hf := by rw [fog_isect o d h e]; exact ⟨rfl, rfl⟩

theorem fog_vertex {sp : SI} {wi : V3 ℝ} (h : FogVertex exFog exFogQ 2 exCam 3 sp wi) : (sp = camVertex exFog 2 exCam ∧ wi = 0) ∨ ∃ p d, V3.dot d d = 1 ∧ sp = mediumVertex exFog 3 p ∧ wi = -d := by
  rcases h with (h | ⟨o, d, hd, e, hf, _⟩) | h
  · exact .inl h
  · rw [fog_isect o d sp e] at hf; cases hf
  · exact .inr h

theorem fog_scene (hF : InScene F) {Ω : Type} [MeasurableSpace Ω] {μ : Measure Ω} [IsProbabilityMeasure μ] {md : Ω → V3 ℝ → V3 ℝ → ℝ → ℝ → DistRes} {mt : Ω → V3 ℝ → V3 ℝ → ℝ → ℝ → Option (V3 ℝ)} (hM : MediumOk μ i F md mt) :
    Foggy μ exFog exFogQ 2 exCam 3 exComps i F md mt where
  regular := fog_regular
  camera := rfl
  node := rfl
  phase := ⟨isotropic, rfl, isotropic_ok⟩
  vertex := hF.vertex
  medium := hM
  single _ _ := rfl
  kind o d h e := by rw [fog_isect o d h e]; simp
  clear sp wi hv c hc := by
    rcases hv with ⟨rfl, rfl⟩ | ⟨o, d, hd, e, hf, _⟩
    · have hc : c ∈ ({0} : Finset ℕ) := hc
      rw [Finset.mem_singleton] at hc
      subst hc
      exact camera_clear rfl exCam_proper F.bound
    · rw [fog_isect o d sp e] at hf; cases hf
  measurable k sp wi hv := by
    have h := fun p : V3 ℝ => (fog_measurable i hF k).comp (measurable_const (a := p) |>.prodMk measurable_id)
    rcases fog_vertex hv with ⟨rfl, _⟩ | ⟨p, d, _, rfl, _⟩
    · have e : F.incoming (fogOptics i) k (camVertex exFog 2 exCam) = F.incoming (fogOptics i) k (mediumVertex exFog 3 (camVertex exFog 2 exCam).geom.p) :=
        funext fun d => fog_position F (fogOptics i) k (camVertex exFog 2 exCam) (mediumVertex exFog 3 (camVertex exFog 2 exCam).geom.p) rfl d
      rw [e]
      exact h _
    · exact h p
  scattering k d hd := by
    have e : ∀ p, F.scattering (fogOptics i) k d (mediumVertex exFog 3 p) = ENNReal.ofReal (1 / (4 * Real.pi)) * ∫⁻ d', F.incoming (fogOptics i) k (mediumVertex exFog 3 p) d' ∂solidAngle := fun p => by
      unfold Fog.scattering
      rw [if_neg (by simp [mediumVertex, makeDegenerated])]
      show ∑ c ∈ {0}, ∫⁻ d', F.incoming (fogOptics i) k (mediumVertex exFog 3 p) d' ∂scattered exFog i (mediumVertex exFog 3 p) (-d) c = _
      rw [Finset.sum_singleton, fog_scatter, withDensity_const, lintegral_smul_measure, smul_eq_mul]
    simp_rw [e]
    exact (Measurable.lintegral_prod_right' (fog_measurable i hF k)).const_mul _

theorem fog_table : LightTable exFog (fun _ => 1) (fun _ => 1) (fun _ => envconst (fun _ => false) 0 (V3.all 1) 0 1) := by
  have hl : exFog.st.lights.length = 1 := rfl
  refine ⟨by rw [hl]; exact one_pos, fun j hj => ?_, fun j hj => ?_, fun j hj => fog_light⟩ <;>
  · rw [hl, Nat.lt_one_iff] at hj
    subst hj
    rfl

theorem fog_sky {sp : SI} {wi : V3 ℝ} (hv : FogVertex exFog exFogQ 2 exCam 3 sp wi) : SkyAt exFogQ 1 0 sp where
  regular := by
    left
    rcases fog_vertex hv with ⟨rfl, _⟩ | ⟨p, d, _, rfl, _⟩ <;> rfl
  faces d h e _ := by rw [fog_isect _ d h e]; rfl
  visible wo _ := ⟨fun _ => ⟨_, rfl, rfl⟩, fun _ => rfl⟩
  measurable := by
    have : {d | SeesSky exFogQ 1 sp.geom.p d} = Set.univ := Set.eq_univ_of_forall fun d => ⟨_, rfl, rfl⟩
    rw [this]; exact MeasurableSet.univ

theorem fog_lit (hF : InScene F) {sp : SI} {wi : V3 ℝ} (hv : FogVertex exFog exFogQ 2 exCam 3 sp wi) :
    Lit exFog exFogQ i (fun _ => 1) (fun _ => 1) (fun _ => envconst (fun _ => false) 0 (V3.all 1) 0 1) sp ∧
    (∀ j < exFog.st.lights.length, LightSeen exFogQ F.bound 1 1 (envconst (fun _ => false) 0 (V3.all 1) 0 1) sp) ∧ Measurable (F.depth exFogQ sp) := by
  have hone : NonNeg (V3.all (1 : ℝ)) := ⟨zero_le_one, zero_le_one, zero_le_one⟩
  refine ⟨lit_of fog_table sp (fun j _ => .sky _ _ _ _ _ one_pos hone (fog_sky hv)) (fun d h e _ => ⟨0, by show 0 < 1; exact one_pos, by rw [fog_isect _ d h e]⟩) i, fun j _ => sky_seen _ _ _ _ (fog_sky hv) (fun d h e _ => by rw [fog_isect _ d h e]; rfl) _, ?_⟩
  have : Measurable fun d : V3 ℝ => transmittance F.bound (fun t => F.extinction (sp.geom.p + t • d)) sp.geom.p d 0 Surface.Inf := (measurable_transmittance F.bound F.extinction hF.extinction).comp (measurable_const.prodMk (measurable_id.prodMk measurable_const))
  exact this.ennreal_ofReal

end

/-! ### A black medium -/

/-- A box that extends beyond the distance up to which the medium is taken into account. -/
noncomputable def wide : Box ℝ := ⟨V3.all (-Surface.Inf), V3.all Surface.Inf⟩

theorem wide_inside (d : V3 ℝ) (hd : V3.dot d d = 1) : inside wide 0 d 0 Surface.Inf = Set.Icc 0 Surface.Inf := by
  ext t
  simp only [inside, Set.mem_ofPred_eq, Set.mem_Icc, wide, V3.all, V3.zero_x, V3.zero_y, V3.zero_z, zero_add]
  constructor
  · exact fun h => ⟨h.1, h.2.1⟩
  · rintro ⟨h0, h1⟩
    have key : ∀ x : ℝ, x * x ≤ 1 → -Surface.Inf ≤ t * x ∧ t * x ≤ Surface.Inf := fun x hx => by
      have hx' := abs_le.mp (abs_le_one_iff_mul_self_le_one.mpr hx)
      constructor <;> nlinarith
    simp only [V3.dot] at hd
    exact ⟨h0, h1, key _ (by nlinarith [mul_self_nonneg d.y, mul_self_nonneg d.z]), key _ (by nlinarith [mul_self_nonneg d.x, mul_self_nonneg d.z]), key _ (by nlinarith [mul_self_nonneg d.y, mul_self_nonneg d.x])⟩

/-- C85, in a concrete scene: a medium with albedo 0 that attenuates the sky by one half. With or without light sampling and for every roulette parameter in [0,1), every pixel has the average 1/2. -/
theorem C85_example (i : Fin 3) (naive : Bool) (nz : V3 ℝ → Bool × Bool × Bool) (q0 : ℝ) (hq0 : 0 ≤ q0) (hq1 : q0 < 1) (k : ℕ) (H : ℝ × ℝ → ℝ≥0∞) (hH : Measurable H) (hHf : ∀ q, H q ≠ ⊤) (u : RaySampleU) (uc : ℝ) (rs : ℕ → Rnd) (ms : ℕ → ℝ × ℝ) :
    averageVol uniform1 (k + 1) 1 rs ms (fun rs' ms' => measured i H (volSample exFog (volQuery (fogDist exFog exFogQ (evenDist wide (Real.log 2 / Surface.Inf) 0 nz)) (fogTr exFog exFogQ (evenTr wide (Real.log 2 / Surface.Inf) nz)) ms') naive q0 (k + 2) u uc rs')) =
      (∫⁻ q, H q ∂uniform2) * (1 / 2) := by
  have hI : 0 < Surface.Inf := by unfold Surface.Inf; norm_num
  have hd : 0 ≤ Real.log 2 / Surface.Inf := div_nonneg (Real.log_nonneg one_le_two) hI.le
  have hF : InScene (theFog wide (Real.log 2 / Surface.Inf) 0 i) := ⟨rfl, measurable_const, measurable_const⟩
  choose dir hdir using fun q : ℝ × ℝ => (C47_primary exCam exCam_proper q.1 q.2)
  have h := C85_scene (fog_scene i hF (even_ok exFog 3 wide _ hd 0 ⟨le_rfl, le_rfl, le_rfl⟩ nz i)) naive (fun _ => ⟨fog_table, fun sp wi hv => fog_lit i hF hv⟩) dir (fun q => (hdir q).1) q0 hq0 hq1 (k + 2) H hH hHf u uc rs ms
  rw [show k + 2 - 1 = k + 1 from rfl] at h
  rw [h]
  have hv : ∀ q, (theFog wide (Real.log 2 / Surface.Inf) 0 i).incoming (fogOptics i) (k + 1) (camVertex exFog 2 exCam) (dir q) = 1 / 2 := fun q => by
    rw [fog_position (theFog wide (Real.log 2 / Surface.Inf) 0 i) (fogOptics i) (k + 1) (camVertex exFog 2 exCam) (mediumVertex exFog 3 0) rfl, fog_incoming i hF]
    have h0 : chan i (0 : V3 ℝ) = 0 := chan_zero i
    unfold radiance transmittance
    simp only [evenFog]
    rw [h0, wide_inside _ (hdir q).2.1]
    simp only [mul_zero, ENNReal.ofReal_zero, zero_mul, lintegral_zero, zero_add, mul_one]
    rw [setIntegral_const]
    simp only [Measure.real, Real.volume_Icc, sub_zero, smul_eq_mul, ENNReal.toReal_ofReal hI.le]
    rw [mul_div_cancel₀ _ hI.ne', Real.exp_neg, Real.exp_log two_pos, ← one_div, ENNReal.ofReal_div_of_pos two_pos]
    simp
  simp_rw [hv]
  rw [lintegral_mul_const _ hH]

/-! ### A ball of fog around the camera -/

theorem ball_value (p : V3 ℝ) : ball.evalScalar p = some (2 * if Real.sqrt (V3.dot (0 - p) (0 - p)) < 1 then 1 else 0) := rfl

theorem ball_measurable : Measurable fun p : V3 ℝ => (2 : ℝ) * if Real.sqrt (V3.dot (0 - p) (0 - p)) < 1 then 1 else 0 :=
  (Measurable.ite (measurableSet_lt (measurable_norm2 0) measurable_const) measurable_const measurable_const).const_mul 2

/-- The optical depth of the ball, seen from its centre. -/
theorem ball_depth (d : V3 ℝ) (hd : V3.dot d d = 1) : ∫ t in inside ball.bound 0 d 0 Surface.Inf, (2 : ℝ) * (if Real.sqrt (V3.dot (0 - (0 + t • d)) (0 - (0 + t • d))) < 1 then 1 else 0) = 2 := by
  classical
  have hI : (1 : ℝ) < Surface.Inf := by unfold Surface.Inf; norm_num
  have hE : (0 : ℝ) < Eps := by unfold Surface.Eps; norm_num
  have hn : ∀ t : ℝ, 0 ≤ t → Real.sqrt (V3.dot (0 - (0 + t • d)) (0 - (0 + t • d))) = t := fun t ht => by
    have : V3.dot (0 - (0 + t • d)) (0 - (0 + t • d)) = t * t := by
      simp only [V3.dot] at hd
      simp only [V3.dot, V3.sub_x, V3.sub_y, V3.sub_z, V3.add_x, V3.add_y, V3.add_z, V3.smul_x, V3.smul_y, V3.smul_z, V3.zero_x, V3.zero_y, V3.zero_z]
      linear_combination t ^ 2 * hd
    rw [this, Real.sqrt_mul_self ht]
  have hm : MeasurableSet (inside ball.bound 0 d 0 Surface.Inf) := (measurableSet_inside ball.bound).preimage (measurable_prodMk_left (x := ((0 : V3 ℝ), d, (Surface.Inf : ℝ))))
  have hsub : Set.Ico (0 : ℝ) 1 ⊆ inside ball.bound 0 d 0 Surface.Inf := by
    rintro t ⟨h0, h1⟩
    have key : ∀ x : ℝ, x * x ≤ 1 → -1 ≤ t * x ∧ t * x ≤ 1 := fun x hx => by
      have hx' := abs_le.mp (abs_le_one_iff_mul_self_le_one.mpr hx)
      constructor <;> nlinarith
    simp only [V3.dot] at hd
    have kx := key d.x (by nlinarith [mul_self_nonneg d.y, mul_self_nonneg d.z])
    have ky := key d.y (by nlinarith [mul_self_nonneg d.x, mul_self_nonneg d.z])
    have kz := key d.z (by nlinarith [mul_self_nonneg d.y, mul_self_nonneg d.x])
    simp only [inside, Set.mem_ofPred_eq, ball, Volume.sphereBound, V3.sub_x, V3.sub_y, V3.sub_z, V3.add_x, V3.add_y, V3.add_z, V3.zero_x, V3.zero_y, V3.zero_z, V3.all]
    refine ⟨h0, by linarith, ⟨?_, ?_⟩, ⟨?_, ?_⟩, ⟨?_, ?_⟩⟩ <;> linarith [kx.1, kx.2, ky.1, ky.2, kz.1, kz.2]
  have e : ∀ t ∈ inside ball.bound 0 d 0 Surface.Inf, (2 : ℝ) * (if Real.sqrt (V3.dot (0 - (0 + t • d)) (0 - (0 + t • d))) < 1 then 1 else 0) = (Set.Ico (0 : ℝ) 1).indicator (fun _ => 2) t := fun t ht => by
    rw [hn t ht.1]
    by_cases h : t < 1
    · rw [if_pos h, Set.indicator_of_mem (Set.mem_Ico.mpr ⟨ht.1, h⟩), mul_one]
    · rw [if_neg h, Set.indicator_of_notMem (fun hc => h hc.2), mul_zero]
  rw [setIntegral_congr_fun hm e, integral_indicator measurableSet_Ico, Measure.restrict_restrict measurableSet_Ico, Set.inter_eq_left.mpr hsub]
  simp

/-- C85, in a heterogeneous medium: a ball of density 2, radius 1 and albedo 0 around the camera, in front of a sky of radiance 1. Whatever the roulette parameter in [0,1), with or without light sampling, the average of every
    pixel is exp(-2), over all sequences of random numbers that the medium uses. -/
theorem C85_example_ball (i : Fin 3) (naive : Bool) (nz : V3 ℝ → Bool × Bool × Bool) (albedo : Vol) (ha : ∀ p, albedo.evalColor p = some 0) (q0 : ℝ) (hq0 : 0 ≤ q0) (hq1 : q0 < 1) (k : ℕ) (H : ℝ × ℝ → ℝ≥0∞) (hH : Measurable H) (hHf : ∀ q, H q ≠ ⊤)
    (u : RaySampleU) (uc : ℝ) (rs : ℕ → Rnd) (ms : ℕ → (ℕ → ℝ) × (ℕ → ℝ)) :
    averageVol uniforms (k + 1) 1 rs ms (fun rs' ms' => measured i H (volSample exFog (volQuery (fogDist exFog exFogQ (cloudDist ball albedo nz)) (fogTr exFog exFogQ (cloudTr ball nz)) ms') naive q0 (k + 2) u uc rs')) =
      (∫⁻ q, H q ∂uniform2) * ENNReal.ofReal (Real.exp (-2)) := by
  have hb := (C84_library ball (.sphere _ _ _ _ _ zero_le_two ball_made)).1
  have hF : InScene (cloud exFog 3 ball.bound _ (fun _ => 0) i) := ⟨rfl, ball_measurable, measurable_const⟩
  have hM := cloud_ok exFog 3 ball albedo hb (by simp [ball]) _ ball_measurable ball_value (fun _ => 0) measurable_const (fun _ => ⟨le_rfl, le_rfl, le_rfl⟩) ha nz i
  choose dir hdir using fun q : ℝ × ℝ => (C47_primary exCam exCam_proper q.1 q.2)
  have h := C85_scene (fog_scene i hF hM) naive (fun _ => ⟨fog_table, fun sp wi hv => fog_lit i hF hv⟩) dir (fun q => (hdir q).1) q0 hq0 hq1 (k + 2) H hH hHf u uc rs ms
  rw [show k + 2 - 1 = k + 1 from rfl] at h
  rw [h]
  have hv : ∀ q, (cloud exFog 3 ball.bound (fun p => (2 : ℝ) * if Real.sqrt (V3.dot (0 - p) (0 - p)) < 1 then 1 else 0) (fun _ => 0) i).incoming (fogOptics i) (k + 1) (camVertex exFog 2 exCam) (dir q) = ENNReal.ofReal (Real.exp (-2)) := fun q => by
    rw [fog_position _ (fogOptics i) (k + 1) (camVertex exFog 2 exCam) (mediumVertex exFog 3 0) rfl, fog_incoming i hF]
    have h0 : chan i (0 : V3 ℝ) = 0 := chan_zero i
    unfold radiance transmittance
    simp only [cloud]
    rw [h0, ball_depth _ (hdir q).2.1]
    simp only [mul_zero, ENNReal.ofReal_zero, zero_mul, lintegral_zero, zero_add, mul_one]
  simp_rw [hv]
  rw [lintegral_mul_const _ hH]

end LM.Transport
