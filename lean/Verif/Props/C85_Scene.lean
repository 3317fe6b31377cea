import Verif.Props.C85_Nee
import Verif.Props.C82_Lamps
import Verif.Props.C84_Medium
/-
  C85: scenes with a medium. What is required of the medium, its phase function, surfaces and lights, and that it suffices.
-/
namespace LM.Transport
open MeasureTheory LM LM.Surface LM.Material LM.Light LM.MathF LM.Path LM.Render LM.Solid LM.Bound LM.Volume LM.Tracking
open scoped ENNReal

variable {Ω : Type} [MeasurableSpace Ω] {μ : Measure Ω} [IsProbabilityMeasure μ]

/-- The ray from o in direction d does not run inside a face plane of the box. -/
def Clear (b : Box ℝ) (o d : V3 ℝ) : Prop := NoGraze b ⟨o, d, (false, false, false)⟩

/-- The transmittance of the medium along a segment. -/
noncomputable def Fog.clarity (F : Fog) (o d : V3 ℝ) (tmax : ℝ) : ℝ := transmittance F.bound (fun t => F.extinction (o + t • d)) o d 0 tmax

/-- What is required of a medium: distances sampled along rays estimate the volume rendering equation without bias, transmittances that of Beer and Lambert. -/
structure MediumOk (μ : Measure Ω) (i : Fin 3) (F : Fog) (md : Ω → V3 ℝ → V3 ℝ → ℝ → ℝ → DistRes) (mt : Ω → V3 ℝ → V3 ℝ → ℝ → ℝ → Option (V3 ℝ)) : Prop where
  distance : ∀ o d tmax, Clear F.bound o d → ∀ L, Measurable L → ∀ w, ∫⁻ s, along i L w (md s o d 0 tmax) ∂μ =
    radiance F.bound (fun t => F.extinction (o + t • d)) (fun t => F.albedo (o + t • d)) o d 0 tmax L w
  weight : ∀ o d tmax, Clear F.bound o d → ∀ᵐ s ∂μ, md s o d 0 tmax ≠ .undef ∧ ∀ p C m, md s o d 0 tmax = .ok p C m → NonNeg C
  defined : ∀ o d tmax, Clear F.bound o d → ∀ᵐ t ∂μ, ∃ T, mt t o d 0 tmax = some T ∧ NonNeg T
  transmittance : ∀ o d tmax, Clear F.bound o d → ∫⁻ t, Solid.value i (mt t o d 0 tmax) ∂μ = ENNReal.ofReal (F.clarity o d tmax)

/-- What is required of a phase function. -/
structure PhaseOk (ph : Phase) : Prop where
  estimates : PhaseEst ph
  unbiased : ∀ wi, V3.dot wi wi = 1 → PhaseUnbiased ph wi
  density : ∀ wi, V3.dot wi wi = 1 → PhaseDensity ph wi
  eval : ∀ wi, V3.dot wi wi = 1 → ∃ G : V3 ℝ → V3 ℝ, Measurable G ∧ ∀ d, V3.dot d d = 1 → NonNeg (G d) ∧ ph.eval wi d = some (G d)
  sample : ∀ wi, V3.dot wi wi = 1 → ∃ D : ℝ × ℝ → V3 ℝ, Measurable D ∧ ∀ᵐ q ∂uniform2, ph.sampleDirection q.1 q.2 wi = .ok (D q) (V3.all 1)

/-- A point of the medium, as a vertex. -/
noncomputable def mediumVertex (W : World) (nm : Int) (p : V3 ℝ) : SI := ⟨.medium, nm, makeDegenerated p W.junk⟩

/-- The vertices of paths: those on surfaces, the camera, and points of the medium. -/
def FogVertex (W : World) (Q : Query) (n : Int) (cam : Camera) (nm : Int) (sp : SI) (wi : V3 ℝ) : Prop :=
  Vertex W Q n cam sp wi ∨ ∃ p d, V3.dot d d = 1 ∧ sp = mediumVertex W nm p ∧ wi = -d

/-- The light samples at sp that are visible are at the point seen in their direction, and that direction does not run inside a face plane of the bound. -/
def LightSeen (Q : Query) (b : Box ℝ) (node : Int) (M : Aff ℝ) (L : Light) (sp : SI) : Prop :=
  ∀ᵐ p ∂uniform3, ∀ᵐ q ∂uniform2, ∀ g wo C, L.sampleDirect ⟨p.1, p.2.1, p.2.2, q.1, q.2⟩ sp.geom M = .ok g wo C → Q.visible sp ⟨.light, node, g⟩ = true →
    Clear b sp.geom.p (-wo) ∧ ∃ h, Q.isect sp.geom.p (-wo) = some h ∧ h.geom.infinite = g.infinite ∧
      (g.infinite = true → g.wo = wo) ∧ (g.infinite = false → h.geom.p = g.p ∧ normalize (g.p - sp.geom.p) = some (-wo))

/-- The queries of the renderers, with the medium's random numbers. -/
noncomputable def fogDist (W : World) (Q : Query) (md : Ω → V3 ℝ → V3 ℝ → ℝ → ℝ → DistRes) (s : Ω) (sp : SI) (wo : V3 ℝ) : DRes :=
  sampleDistance W (fun a b => md s sp.geom.p wo a b) (Q.isect sp.geom.p wo) sp
noncomputable def fogTr (W : World) (Q : Query) (mt : Ω → V3 ℝ → V3 ℝ → ℝ → ℝ → Option (V3 ℝ)) (t : Ω) (sp1 sp2 : SI) : Option (V3 ℝ) :=
  evalTransmittance W (Q.visible sp1 sp2) (fun d D => mt t sp1.geom.p d 0 D) sp1 sp2

theorem hitDistance_eq (sp : SI) (hit : Option SI) : hitDistance sp hit = reach sp.geom.p hit := by
  cases hit <;> rfl

/-- The estimate made with a sampled distance. -/
theorem fogDist_worth {W : World} {nm : Int} (hm : W.st.medium = some nm) (Q : Query) (md : Ω → V3 ℝ → V3 ℝ → ℝ → ℝ → DistRes) (i : Fin 3) (V : SI → ℝ≥0∞) (s : Ω) (sp : SI) (wo : V3 ℝ) :
    distWorth i V (fogDist W Q md s sp wo) = along i (fun p => V (mediumVertex W nm p)) (match Q.isect sp.geom.p wo with | none => 0 | some hit => V hit) (md s sp.geom.p wo 0 (reach sp.geom.p (Q.isect sp.geom.p wo))) := by
  have hone : chan i (V3.all (1 : ℝ)) = 1 := by fin_cases i <;> rfl
  simp only [fogDist, sampleDistance, hm, hitDistance_eq]
  cases md s sp.geom.p wo 0 (reach sp.geom.p (Q.isect sp.geom.p wo)) with
  | none => cases Q.isect sp.geom.p wo <;> simp [distWorth, along, hone]
  | undef => rfl
  | ok p C m => cases m <;> cases Q.isect sp.geom.p wo <;> simp [distWorth, along, mediumVertex]

/-- The interactions found by sampling a distance. -/
theorem fogDist_ok {W : World} {nm : Int} (hm : W.st.medium = some nm) {Q : Query} {md : Ω → V3 ℝ → V3 ℝ → ℝ → ℝ → DistRes} {s : Ω} {sp : SI} {wo : V3 ℝ}
    (hw : md s sp.geom.p wo 0 (reach sp.geom.p (Q.isect sp.geom.p wo)) ≠ .undef ∧ ∀ p C m, md s sp.geom.p wo 0 (reach sp.geom.p (Q.isect sp.geom.p wo)) = .ok p C m → NonNeg C) :
    fogDist W Q md s sp wo ≠ .undef ∧ ∀ hit wd, fogDist W Q md s sp wo = .ok hit wd → NonNeg wd ∧ (Q.isect sp.geom.p wo = some hit ∨ ∃ p, hit = mediumVertex W nm p) := by
  obtain ⟨h1, h2⟩ := hw
  have hone : NonNeg (V3.all (1 : ℝ)) := ⟨zero_le_one, zero_le_one, zero_le_one⟩
  simp only [fogDist, sampleDistance, hm, hitDistance_eq]
  cases e : md s sp.geom.p wo 0 (reach sp.geom.p (Q.isect sp.geom.p wo)) with
  | none =>
    cases Q.isect sp.geom.p wo with
    | none => simp
    | some h => simpa using hone
  | undef => exact absurd e h1
  | ok p C m =>
    have hC := h2 p C m e
    cases m with
    | true =>
      refine ⟨by simp, fun hit wd h => ?_⟩
      simp only [DRes.ok.injEq] at h
      obtain ⟨rfl, rfl⟩ := h
      exact ⟨hC, .inr ⟨p, rfl⟩⟩
    | false =>
      cases Q.isect sp.geom.p wo with
      | none => simp
      | some h => simpa using hC

/-! ### Directions -/

theorem clear_of_ne {b : Box ℝ} {o d : V3 ℝ} (hx : d.x ≠ 0) (hy : d.y ≠ 0) (hz : d.z ≠ 0) : Clear b o d := ⟨fun h => absurd h hx, fun h => absurd h hy, fun h => absurd h hz⟩

/-- Almost no direction runs inside a face plane. -/
theorem clear_ae (b : Box ℝ) (o : V3 ℝ) : ∃ N : Set (V3 ℝ), MeasurableSet N ∧ solidAngle N = 0 ∧ ∀ d, d ∉ N → Clear b o d := by
  have h1 := grazing_null (n := ⟨1, 0, 0⟩) (by intro h; have := congrArg V3.x h; simp at this)
  have h2 := grazing_null (n := ⟨0, 1, 0⟩) (by intro h; have := congrArg V3.y h; simp at this)
  have h3 := grazing_null (n := ⟨0, 0, 1⟩) (by intro h; have := congrArg V3.z h; simp at this)
  have h : ∀ᵐ d ∂solidAngle, d.x ≠ 0 ∧ d.y ≠ 0 ∧ d.z ≠ 0 := by
    filter_upwards [h1, h2, h3] with d a1 a2 a3
    simp only [V3.dot, mul_one, mul_zero, add_zero, zero_add] at a1 a2 a3
    exact ⟨a1, a2, a3⟩
  refine ⟨{d | ¬ (d.x ≠ 0 ∧ d.y ≠ 0 ∧ d.z ≠ 0)}, ?_, h, fun d hd => ?_⟩
  · exact (((measurableSet_eq_fun measurable_x measurable_const).compl.inter ((measurableSet_eq_fun measurable_y measurable_const).compl.inter (measurableSet_eq_fun measurable_z measurable_const).compl))).compl
  · have : d.x ≠ 0 ∧ d.y ≠ 0 ∧ d.z ≠ 0 := by by_contra hc; exact hd hc
    exact clear_of_ne this.1 this.2.1 this.2.2

/-- A direction sampled with a density almost surely does not run inside a face plane. -/
theorem clear_of_density {U : Type} [MeasurableSpace U] {ν : Measure U} {sample : U → DirRes} {σ : Measure (V3 ℝ)} {p : V3 ℝ → Option ℝ} (h : HasDensity ν sample σ p) (hσ : σ ≪ solidAngle) (b : Box ℝ) (o : V3 ℝ) :
    ∀ᵐ u ∂ν, ∀ wo C, sample u = .ok wo C → Clear b o wo := by
  obtain ⟨N, hN, h0, hc⟩ := clear_ae b o
  have h1 := (h.2 N hN).2
  rw [setLIntegral_measure_zero _ _ (hσ h0)] at h1
  refine Filter.Eventually.mono (measure_eq_zero_iff_ae_notMem.mp h1) fun u hu wo C e => hc wo fun hw => hu ⟨wo, C, e, hw⟩

/-! ### Scenes -/

/-- What is required of a scene with a medium (node nm). -/
structure Foggy (μ : Measure Ω) (W : World) (Q : Query) (n : Int) (cam : Camera) (nm : Int) (comps : SI → V3 ℝ → Finset ℕ) (i : Fin 3) (F : Fog) (md : Ω → V3 ℝ → V3 ℝ → ℝ → ℝ → DistRes)
    (mt : Ω → V3 ℝ → V3 ℝ → ℝ → ℝ → Option (V3 ℝ)) : Prop where
  regular : Regular W Q n cam comps
  camera : W.st.camera = some n
  node : W.st.medium = some nm
  phase : ∃ ph, W.phaseAt nm = some ph ∧ PhaseOk ph
  vertex : F.vertex = mediumVertex W nm
  medium : MediumOk μ i F md mt
  single : ∀ p wi, comps (mediumVertex W nm p) wi = {0}
  /-- intersections are with surfaces or the environment -/
  kind : ∀ o d hit, Q.isect o d = some hit → hit.kind ≠ .medium
  /-- almost surely, the directions in which paths leave surfaces and the camera do not run inside the face planes of the medium's bound -/
  clear : ∀ sp wi, Vertex W Q n cam sp wi → ∀ c ∈ comps sp wi, ∀ᵐ u ∂uniform3, ∀ wo C, sampleDirection W ⟨u.1, u.2.1, u.2.2⟩ sp wi c .EL = .ok wo C → Clear F.bound sp.geom.p wo
  /-- radiance is a measurable function of the direction, what is scattered a measurable function of the point -/
  measurable : ∀ k sp wi, FogVertex W Q n cam nm sp wi → Measurable (F.incoming (optics W Q i comps) k sp)
  scattering : ∀ k d, V3.dot d d = 1 → Measurable fun p => F.scattering (optics W Q i comps) k d (mediumVertex W nm p)

section
variable {W : World} {Q : Query} {n : Int} {cam : Camera} {nm : Int} {comps : SI → V3 ℝ → Finset ℕ} {i : Fin 3} {F : Fog} {md : Ω → V3 ℝ → V3 ℝ → ℝ → ℝ → DistRes} {mt : Ω → V3 ℝ → V3 ℝ → ℝ → ℝ → Option (V3 ℝ)}

theorem unit_neg {d : V3 ℝ} (h : V3.dot d d = 1) : V3.dot (-d) (-d) = 1 := by rw [← h]; simp [V3.dot]

theorem phase_sample {ph : Phase} (hp : W.phaseAt nm = some ph) (u : DirU) (p wi : V3 ℝ) (c : ℕ) : sampleDirection W u (mediumVertex W nm p) wi c .EL = ph.sampleDirection u.ud0 u.ud1 wi := by
  simp only [sampleDirection, mediumVertex, hp]

theorem phase_scatter {ph : Phase} (hp : W.phaseAt nm = some ph) (i : Fin 3) (p wi : V3 ℝ) (c : ℕ) : scattered W i (mediumVertex W nm p) wi c = solidAngle.withDensity fun d => Solid.value i (ph.eval wi d) := by
  have e : solidAngleAt (mediumVertex W nm p).geom = solidAngle := by simp [solidAngleAt, mediumVertex, makeDegenerated]
  unfold scattered
  rw [e]
  simp only [isSpecularComponent, mediumVertex, evalContrbDirection, hp, Option.bind_some]

/-- Scattering in the medium is estimated without bias. -/
theorem phase_unbiased {ph : Phase} (hp : W.phaseAt nm = some ph) (ho : PhaseOk ph) (i : Fin 3) (p wi : V3 ℝ) (hw : V3.dot wi wi = 1) (c : ℕ) (L : V3 ℝ → ℝ≥0∞) (hL : Measurable L) :
    ∫⁻ u, worth i L (sampleDirection W ⟨u.1, u.2.1, u.2.2⟩ (mediumVertex W nm p) wi c .EL) ∂uniform3 = ∫⁻ d, L d ∂scattered W i (mediumVertex W nm p) wi c := by
  obtain ⟨G, hG, hGe⟩ := ho.eval wi hw
  obtain ⟨D, hD, hDe⟩ := ho.sample wi hw
  have hone : chan i (V3.all (1 : ℝ)) = 1 := by fin_cases i <;> rfl
  have hgm : Measurable fun d => ENNReal.ofReal (chan i (G d)) := ((measurable_chan i).comp hG).ennreal_ofReal
  have h := ho.unbiased wi hw i L hL
  simp_rw [phase_sample hp]
  rw [phase_scatter hp, withDensity_congr_ae (g := fun d => ENNReal.ofReal (chan i (G d))) (solidAngle_unit.mono fun d hd => by beta_reduce; rw [(hGe d hd).2]; rfl), lintegral_withDensity_eq_lintegral_mul _ hgm hL]
  have e1 : ∫⁻ q, L (D q) ∂uniform2 = ∫⁻ d, ((fun d => ENNReal.ofReal (chan i (G d))) * L) d ∂solidAngle := by
    refine Eq.trans ?_ (h.trans ?_)
    · exact lintegral_congr_ae (hDe.mono fun q hq => by beta_reduce; rw [hq]; simp only [worth, hone, ENNReal.ofReal_one, one_mul])
    · exact lintegral_congr_ae (solidAngle_unit.mono fun d hd => by beta_reduce; rw [(hGe d hd).2]; rfl)
  rw [← e1, lintegral_map_equiv_first (fun q => L (D q)) (hL.comp hD)]
  refine lintegral_congr_ae ((first2.quasiMeasurePreserving.ae hDe).mono fun u hu => ?_)
  beta_reduce
  simp only at hu
  rw [hu]
  simp only [worth, hone, ENNReal.ofReal_one, one_mul]

omit [IsProbabilityMeasure μ] in
/-- Almost surely, the sampled direction at a vertex is a unit vector, does not run inside a face plane of the bound, its weight is not negative, and sampling is defined. -/
theorem Foggy.direction (h : Foggy μ W Q n cam nm comps i F md mt) {sp : SI} {wi : V3 ℝ} (hv : FogVertex W Q n cam nm sp wi) {c : ℕ} (hc : c ∈ comps sp wi) :
    ∀ᵐ u ∂uniform3, sampleDirection W ⟨u.1, u.2.1, u.2.2⟩ sp wi c .EL ≠ .undef ∧ ∀ wo C, sampleDirection W ⟨u.1, u.2.1, u.2.2⟩ sp wi c .EL = .ok wo C → NonNeg C ∧ V3.dot wo wo = 1 ∧ Clear F.bound sp.geom.p wo := by
  rcases hv with hv | ⟨p, d, hd, rfl, rfl⟩
  · filter_upwards [cube_ae, h.clear sp wi hv c hc] with u hu hcl
    obtain ⟨h1, h2⟩ := h.regular.direction hv hc ⟨u.1, u.2.1, u.2.2⟩ ⟨hu.1, hu.2.1, hu.2.2⟩
    exact ⟨h1, fun wo C e => ⟨(h2 wo C e).1, (h2 wo C e).2, hcl wo C e⟩⟩
  · obtain ⟨ph, hp, ho⟩ := h.phase
    have hw := unit_neg hd
    have hcl := clear_of_density (ho.density _ hw) (Measure.AbsolutelyContinuous.refl _) F.bound (mediumVertex W nm p).geom.p
    filter_upwards [cube_ae, first2.quasiMeasurePreserving.ae hcl] with u hu hcl
    obtain ⟨wo, C, P, f, e, hun, ep, ev, h0, hC⟩ := ho.estimates u.1 u.2.1 (-d) hu.1.1 hu.1.2 hu.2.1.1 hu.2.1.2 hw
    obtain ⟨G, hG, hGe⟩ := ho.eval _ hw
    rw [phase_sample hp]
    dsimp only at hcl ⊢
    rw [e] at hcl ⊢
    refine ⟨by simp, fun wo' C' e' => ?_⟩
    cases e'
    have hn := (hGe wo hun).1
    rw [(hGe wo hun).2] at ev
    cases ev
    have : C = (1 / P) • G wo := by rw [← hC, smul_smul, one_div_mul_cancel h0.ne', one_smul]
    refine ⟨?_, hun, hcl wo C rfl⟩
    rw [this]
    exact nonneg_smul (by positivity) hn

/-- A scene with a medium meets the requirements for tracing paths without light sampling. -/
theorem Foggy.sound (h : Foggy μ W Q n cam nm comps i F md mt) : VolSound μ W (optics W Q i comps) F (fogDist W Q md) i (FogVertex W Q n cam nm) where
  emit := rfl
  medium p := by rw [h.vertex]; exact ⟨rfl, rfl⟩
  surface o d hit hi := h.kind o d hit hi
  unbiased sp wi hv c hc L hL := by
    rcases hv with hv | ⟨p, d, hd, rfl, rfl⟩
    · rcases hv with ⟨rfl, rfl⟩ | ⟨o, d, hd, hi, hinf, rfl⟩
      · have hc : c ∈ comps (camVertex W n cam) 0 := hc
        rw [h.regular.single, Finset.mem_singleton] at hc
        subst hc
        exact camera_unbiased h.regular.camera h.regular.proper i L hL
      · obtain ⟨hk, hdeg, hon, hgr, m, hm, hok⟩ := h.regular.surface o d sp hd hi hinf
        rcases hok.comp c hc with hs | hs
        · exact smooth_unbiased hk hdeg hm hs i L hL
        · exact specular_unbiased hk hm hs i L hL
    · obtain ⟨ph, hp, ho⟩ := h.phase
      exact phase_unbiased hp ho i p _ (unit_neg hd) c L hL
  next sp wi hv c hc := by
    refine (h.direction hv hc).mono fun u hu => ⟨hu.1, fun wo C e => ?_⟩
    obtain ⟨hC, hun, hcl⟩ := hu.2 wo C e
    refine ⟨hC, fun V hV => ?_, fun k => ?_, ?_⟩
    · rw [h.vertex] at hV ⊢
      simp_rw [fogDist_worth h.node]
      exact h.medium.distance _ _ _ hcl _ hV _
    · rw [h.vertex]; exact h.scattering k wo hun
    · refine (h.medium.weight _ _ (reach sp.geom.p (Q.isect sp.geom.p wo)) hcl).mono fun s hs => ?_
      obtain ⟨h1, h2⟩ := fogDist_ok h.node hs
      refine ⟨h1, fun hit wd e => ?_⟩
      obtain ⟨h3, h4⟩ := h2 hit wd e
      refine ⟨h3, ?_⟩
      rcases h4 with h4 | ⟨p, rfl⟩
      · have hk := h.kind _ _ _ h4
        refine ⟨?_, fun hinf => .inl (.inr ⟨_, wo, hun, h4, hinf, rfl⟩)⟩
        rw [h.regular.isLight _ _ _ hun h4]
        simp [hk]
      · refine ⟨?_, fun _ => .inr ⟨p, wo, hun, rfl, rfl⟩⟩
        obtain ⟨ph, hp, _⟩ := h.phase
        unfold World.phaseAt at hp
        cases hpr : W.prim nm with
        | none => rw [hpr] at hp; simp at hp
        | some pr =>
          rw [hpr] at hp
          cases hmed : pr.medium with
          | none => simp [hmed] at hp
          | some x => simp [isLight, mediumVertex, hpr, hmed]
  select sp wi hv := by
    rcases hv with hv | ⟨p, d, hd, rfl, rfl⟩
    · exact h.regular.select hv
    · have hcs : (optics W Q i comps).comps (mediumVertex W nm p) (-d) = {0} := h.single _ _
      refine ⟨fun u _ _ => ⟨0, 1, rfl, by rw [hcs]; simp, zero_le_one⟩, fun F => ?_⟩
      rw [hcs]
      have : ∀ u, sampleComponent W u (mediumVertex W nm p) (-d) = some (0, 1) := fun _ => rfl
      simp_rw [this]
      simp only [compWorth, ENNReal.ofReal_one, one_mul, Finset.sum_singleton]
      exact int1_const _
  measurable := h.measurable

/-! ### Light sampling -/

omit [IsProbabilityMeasure μ] in
/-- The transmittance towards a light sample that is visible: that of the ray in its direction, up to what is seen there. -/
theorem fogTr_visible (hm : W.st.medium = some nm) {sp : SI} (hf : sp.geom.infinite = false) {g : Geom} {wo : V3 ℝ} {node : Int} (hv : Q.visible sp ⟨.light, node, g⟩ = true) {h : SI} (hi : Q.isect sp.geom.p (-wo) = some h)
    (hinf : h.geom.infinite = g.infinite) (h1 : g.infinite = true → g.wo = wo) (h2 : g.infinite = false → h.geom.p = g.p ∧ normalize (g.p - sp.geom.p) = some (-wo)) (t : Ω) :
    fogTr W Q mt t sp ⟨.light, node, g⟩ = mt t sp.geom.p (-wo) 0 (reach sp.geom.p (Q.isect sp.geom.p (-wo))) := by
  simp only [fogTr, evalTransmittance, hv, hm, hf, hi, reach, hinf]
  cases hg : g.infinite with
  | true => simp [h1 hg]
  | false =>
    obtain ⟨e1, e2⟩ := h2 hg
    have : V3.dot (sp.geom.p - g.p) (sp.geom.p - g.p) = V3.dot (g.p - sp.geom.p) (g.p - sp.geom.p) := by simp [V3.dot]; ring
    simp [e2, e1, this]

/-- The transmittance in a direction, up to what is seen there. -/
noncomputable def Fog.depth (F : Fog) (Q : Query) (sp : SI) (d : V3 ℝ) : ℝ≥0∞ := ENNReal.ofReal (F.clarity sp.geom.p d (reach sp.geom.p (Q.isect sp.geom.p d)))

omit [IsProbabilityMeasure μ] in
theorem seen_depth (sp : SI) (d : V3 ℝ) : F.seen (optics W Q i comps) sp d = F.depth Q sp d * (optics W Q i comps).seen sp d := by
  unfold Fog.seen Fog.through radiance Fog.depth Fog.clarity
  simp [optics]

theorem Foggy.connects (h : Foggy μ W Q n cam nm comps i F md mt) {node M Lt} (ht : LightTable W node M Lt) {sp : SI} (hf : sp.geom.infinite = false) (hl : Lit W Q i node M Lt sp)
    (hs : ∀ j < W.st.lights.length, LightSeen Q F.bound (node j) (M j) (Lt j) sp) (hd : Measurable (F.depth Q sp)) : VolConnects μ W (optics W Q i comps) F (fogTr W Q mt) (solidAngleAt sp.geom) i sp := by
  have hC := hl.connects ht comps
  have hall : ∀ᵐ p ∂uniform3, ∀ᵐ q ∂uniform2, ∀ j ∈ Finset.range W.st.lights.length, _ := (by
    have := fun j hj => hs j (Finset.mem_range.mp hj)
    have h1 := (Finset.eventually_all _).mpr this
    exact h1.mono fun p hp => (Finset.eventually_all _).mpr hp)
  -- what is known of almost all light samples
  have key : Almost fun u => ∀ spL woL wL, sampleDirect W u sp .LE = .ok spL woL wL → Q.visible sp spL = true → Clear F.bound sp.geom.p (-woL) ∧
      ∀ t, fogTr W Q mt t sp spL = mt t sp.geom.p (-woL) 0 (reach sp.geom.p (Q.isect sp.geom.p (-woL))) := by
    refine uniform1_ae.mono fun s hs' => hall.mono fun p hp => hp.mono fun q hq => ?_
    obtain ⟨j, hj, e⟩ := ht.sampled ⟨p.1, p.2.1, s, p.2.2, q.1, q.2⟩ hs'.1 hs'.2 sp
    rw [e]
    simp only [RaySampleU.toLight]
    intro spL woL wL h4 hv
    cases es : (Lt j).sampleDirect ⟨p.1, p.2.1, p.2.2, q.1, q.2⟩ sp.geom (M j) with
    | undef => rw [es] at h4; simp [wrap] at h4
    | unsupported => rw [es] at h4; simp [wrap] at h4
    | fail => rw [es] at h4; simp [wrap] at h4
    | ok g wo C =>
      rw [es] at h4
      simp only [wrap, SRes.ok.injEq] at h4
      obtain ⟨rfl, rfl, rfl⟩ := h4
      obtain ⟨h1, hit, h2, h3, h5, h6⟩ := hq j (Finset.mem_range.mpr hj) g wo C es hv
      exact ⟨h1, fun t => fogTr_visible h.node hf hv h2 h3 h5 h6 t⟩
  have hnv : ∀ t spL, Q.visible sp spL = false → fogTr W Q mt t sp spL = some 0 := fun t spL hv => by
    simp only [fogTr, evalTransmittance, hv, Bool.not_false, if_true]; rfl
  refine ⟨fun G hG hGf => ?_, ?_⟩
  · have e : averageLight (fun u => ∫⁻ t, trWorth i G (fogTr W Q mt t sp) (sampleDirect W u sp .LE) ∂μ) = averageLight fun u => lightWorth Q sp i (fun d => F.depth Q sp d * G d) (sampleDirect W u sp .LE) := by
      refine averageLight_congr (Filter.Eventually.mono key fun s hs1 => hs1.mono fun p hp => hp.mono fun q hq => ?_)
      beta_reduce
      cases hsd : sampleDirect W ⟨p.1, p.2.1, s, p.2.2, q.1, q.2⟩ sp .LE with
      | undef => simp only [trWorth, lightWorth]; exact intP_const _
      | fail => simp only [trWorth, lightWorth]; exact intP_const _
      | ok spL woL wL =>
        cases hv : Q.visible sp spL with
        | false => simp [trWorth, lightWorth, hv, hnv _ spL hv, chan_zero]
        | true =>
          obtain ⟨hcl, htr⟩ := hq spL woL wL hsd hv
          have hval : ∀ t, trWorth i G (fogTr W Q mt t sp) (.ok spL woL wL) = if fogTr W Q mt t sp spL = none then ⊤ else Solid.value i (mt t sp.geom.p (-woL) 0 (reach sp.geom.p (Q.isect sp.geom.p (-woL)))) * (ENNReal.ofReal (chan i wL) * G (-woL)) := fun t => by
            simp only [trWorth]
            cases hT : fogTr W Q mt t sp spL with
            | none => simp
            | some T => rw [← htr t, hT]; simp [Solid.value]
          simp_rw [hval]
          simp only [lightWorth, hv, if_true]
          rw [lintegral_congr_ae (g := fun t => Solid.value i (mt t sp.geom.p (-woL) 0 (reach sp.geom.p (Q.isect sp.geom.p (-woL)))) * (ENNReal.ofReal (chan i wL) * G (-woL)))
            ((h.medium.defined _ _ (reach sp.geom.p (Q.isect sp.geom.p (-woL))) hcl).mono fun t ⟨T, hT, _⟩ => by beta_reduce; rw [if_neg]; rw [htr t, hT]; simp), lintegral_mul_const' _ _ (ENNReal.mul_ne_top ENNReal.ofReal_ne_top (hGf _)), h.medium.transmittance _ _ _ hcl]
          unfold Fog.depth
          ring
    have hm : Measurable fun d => F.depth Q sp d * G d := hd.mul hG
    rw [e, hC.light _ hm]
    show ∫⁻ d, _ ∂solidAngleAt sp.geom = _
    refine lintegral_congr fun d => ?_
    rw [seen_depth]
    ring
  · have hcs : Almost _ := hC.sampled
    refine Filter.Eventually.mp key (Filter.Eventually.mono hcs fun s h1 h2 => h2.mp (h1.mono fun p h1 h2 => h2.mp (h1.mono fun q h1 h2 => ?_)))
    refine ⟨h1.1, fun spL woL wL e => ?_⟩
    cases hv : Q.visible sp spL with
    | false => exact Filter.Eventually.of_forall fun t => ⟨0, hnv t spL hv, fun hc => absurd rfl hc⟩
    | true =>
      obtain ⟨hcl, htr⟩ := h2 spL woL wL e hv
      obtain ⟨hun, hwL, _⟩ := h1.2 spL woL wL e hv
      exact (h.medium.defined _ _ (reach sp.geom.p (Q.isect sp.geom.p (-woL))) hcl).mono fun t ⟨T, hT, hTn⟩ => ⟨T, by rw [htr t, hT], fun _ => ⟨hun, hwL, hTn⟩⟩

/-- A lit scene with a medium meets the requirements for light sampling. -/
theorem Foggy.nee (h : Foggy μ W Q n cam nm comps i F md mt) {node M Lt} (ht : LightTable W node M Lt) (hl : ∀ sp wi, FogVertex W Q n cam nm sp wi → Lit W Q i node M Lt sp)
    (hs : ∀ sp wi, FogVertex W Q n cam nm sp wi → ∀ j < W.st.lights.length, LightSeen Q F.bound (node j) (M j) (Lt j) sp) (hd : ∀ sp wi, FogVertex W Q n cam nm sp wi → Measurable (F.depth Q sp)) :
    VolNeeSound μ W (optics W Q i comps) F (fogTr W Q mt) i (FogVertex W Q n cam nm) := by
  intro sp wi hv c hc
  have hfin : sp.geom.infinite = false := by
    rcases hv with (⟨rfl, rfl⟩ | ⟨o, d, hd, hi, hinf, rfl⟩) | ⟨p, d, hd, rfl, rfl⟩
    · rfl
    · exact hinf
    · rfl
  have hcon := h.connects ht hfin (hl sp wi hv) (hs sp wi hv) (hd sp wi hv)
  rcases hv with hv | ⟨p, d, hd, rfl, rfl⟩
  · obtain ⟨b, hb, hcs⟩ := (h.regular.nee ht i (fun sp wi hv => hl sp wi (.inl hv))).specular sp wi hv c hc
    refine ⟨b, hb, fun e => ⟨solidAngleAt sp.geom, bsdfOf W sp wi c, hcon, ?_⟩⟩
    have hsc := (hcs e).2
    exact ⟨hsc.scatter, hsc.measurable_bsdf, hsc.eval⟩
  · obtain ⟨ph, hp, ho⟩ := h.phase
    obtain ⟨G, hG, hGe⟩ := ho.eval _ (unit_neg hd)
    refine ⟨false, rfl, fun _ => ⟨_, G, hcon, ?_, hG, fun d' hd' => ⟨?_, (hGe d' hd').1⟩⟩⟩
    · show scattered W i (mediumVertex W nm p) (-d) c = _
      rw [phase_scatter hp]
      have e : solidAngleAt (mediumVertex W nm p).geom = solidAngle := by simp [solidAngleAt, mediumVertex, makeDegenerated]
      rw [e]
      exact withDensity_congr_ae (solidAngle_unit.mono fun d' hd' => by beta_reduce; rw [(hGe d' hd').2]; rfl)
    · simp only [evalContrbDirection, mediumVertex, hp, Option.bind_some, (hGe d' hd').2]

/-- C85. What the volumetric path tracers compute in a scene whose medium, surfaces and lights meet the requirements: for every roulette parameter in [0,1), the integral over the film of the radiance arriving through the
    medium along the primary rays. -/
theorem C85_scene (h : Foggy μ W Q n cam nm comps i F md mt) {node M Lt} (naive : Bool) (hl : naive = false → LightTable W node M Lt ∧ ∀ sp wi, FogVertex W Q n cam nm sp wi → Lit W Q i node M Lt sp ∧
      (∀ j < W.st.lights.length, LightSeen Q F.bound (node j) (M j) (Lt j) sp) ∧ Measurable (F.depth Q sp))
    (dir : ℝ × ℝ → V3 ℝ) (hdir : ∀ q, primaryRay cam q.1 q.2 = some (dir q)) (q0 : ℝ) (hq0 : 0 ≤ q0) (hq1 : q0 < 1) (maxVerts : ℕ)
    (H : ℝ × ℝ → ℝ≥0∞) (hH : Measurable H) (hHf : ∀ q, H q ≠ ⊤) (u : RaySampleU) (uc : ℝ) (rs : ℕ → Rnd) (ms : ℕ → Ω × Ω) :
    averageVol μ (maxVerts - 1) 1 rs ms (fun rs' ms' => measured i H (volSample W (volQuery (fogDist W Q md) (fogTr W Q mt) ms') naive q0 maxVerts u uc rs')) =
      ∫⁻ q, H q * F.incoming (optics W Q i comps) (maxVerts - 1) (camVertex W n cam) (dir q) ∂uniform2 :=
  C85_volpt W _ F _ _ i _ h.sound naive (fun e => h.nee (hl e).1 (fun sp wi hv => ((hl e).2 sp wi hv).1) (fun sp wi hv => ((hl e).2 sp wi hv).2.1) (fun sp wi hv => ((hl e).2 sp wi hv).2.2))
    n cam h.camera h.regular.camera h.regular.proper (.inl (.inl ⟨rfl, rfl⟩)) (by show 0 ∈ comps _ _; rw [h.regular.single]; simp) dir hdir q0 hq0 hq1 maxVerts H hH hHf u uc rs ms

end

end LM.Transport
