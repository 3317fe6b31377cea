import Verif.Props.C85_Scene
import Verif.Props.C80_Camera
/-
  C85: homogeneous media, phase functions, and lights seen through a medium.
-/
namespace LM.Transport
open MeasureTheory LM LM.Surface LM.Material LM.Light LM.MathF LM.Path LM.Render LM.Solid LM.Bound LM.Volume LM.Tracking
open scoped ENNReal

/-- A homogeneous medium in the box b. -/
noncomputable def evenFog (W : World) (nm : Int) (b : Box ℝ) (density : ℝ) (albedo : V3 ℝ) (i : Fin 3) : Fog := ⟨b, fun _ => density, fun _ => chan i albedo, mediumVertex W nm⟩

/-- medium::homogeneous, along the ray from o in direction d; nz are the signs of zero components of the direction. -/
noncomputable def evenDist (b : Box ℝ) (density : ℝ) (albedo : V3 ℝ) (nz : V3 ℝ → Bool × Bool × Bool) (u : ℝ) (o d : V3 ℝ) (tmin tmax : ℝ) : DistRes := homogeneousDistance density albedo b ⟨o, d, nz d⟩ tmin tmax u
noncomputable def evenTr (b : Box ℝ) (density : ℝ) (nz : V3 ℝ → Bool × Bool × Bool) (_ : ℝ) (o d : V3 ℝ) (tmin tmax : ℝ) : Option (V3 ℝ) := homogeneousTransmittance density b ⟨o, d, nz d⟩ tmin tmax

/-- The homogeneous medium meets the requirements. -/
theorem even_ok (W : World) (nm : Int) (b : Box ℝ) (density : ℝ) (hd : 0 ≤ density) (albedo : V3 ℝ) (ha : NonNeg albedo) (nz : V3 ℝ → Bool × Bool × Bool) (i : Fin 3) :
    MediumOk uniform1 i (evenFog W nm b density albedo i) (evenDist b density albedo nz) (evenTr b density nz) where
  distance o d tmax hc L _ w := (C84_homogeneous_partial density albedo b ⟨o, d, nz d⟩ 0 tmax hd hc i L w).1
  weight o d tmax hc := by
    refine Filter.Eventually.of_forall fun u => ?_
    have hone : NonNeg (V3.all (1 : ℝ)) := ⟨zero_le_one, zero_le_one, zero_le_one⟩
    have h := chord_cases b ⟨o, d, nz d⟩ 0 tmax hc
    unfold evenDist homogeneousDistance
    rcases h with ⟨e, _⟩ | ⟨a, c, e, _, _⟩
    · rw [e]; simp
    · rw [e]
      dsimp only
      split
      · refine ⟨by simp, fun p C m h => ?_⟩
        cases h; exact ha
      · refine ⟨by simp, fun p C m h => ?_⟩
        cases h; exact hone
  defined o d tmax hc := by
    refine Filter.Eventually.of_forall fun u => ⟨_, (C84_homogeneous_partial density albedo b ⟨o, d, nz d⟩ 0 tmax hd hc i (fun _ => 0) 0).2, ?_⟩
    have := Real.exp_pos (-∫ t in inside b o d 0 tmax, density)
    exact ⟨this.le, this.le, this.le⟩
  transmittance o d tmax hc := by
    have e : ∀ u, evenTr b density nz u o d 0 tmax = some (V3.all (transmittance b (fun _ => density) o d 0 tmax)) := fun _ => (C84_homogeneous_partial density albedo b ⟨o, d, nz d⟩ 0 tmax hd hc i (fun _ => 0) 0).2
    simp_rw [e]
    rw [int1_const]
    have : chan i (V3.all (transmittance b (fun _ => density) o d 0 tmax)) = transmittance b (fun _ => density) o d 0 tmax := by fin_cases i <;> rfl
    simp only [Solid.value, this]
    rfl

/-! ### Phase functions -/

theorem isotropic_ok : PhaseOk isotropic where
  estimates := (C59_weights (fun _ => false) 0 (by simp)).2
  unbiased wi hw := C81_isotropic wi hw
  density wi _ := C80_isotropic wi
  eval wi _ := by
    have : (0 : ℝ) ≤ 1 / (4 * Real.pi) := by positivity
    exact ⟨fun _ => V3.all (1 / (4 * Real.pi)), measurable_const, fun d _ => ⟨⟨this, this, this⟩, rfl⟩⟩
  sample wi _ := ⟨fun q => sampleUniformSphere q.1 q.2, measurable_sphere, Filter.Eventually.of_forall fun q => rfl⟩

/-- Henyey-Greenstein, with |g| < 1 and |g| ≥ Eps or g = 0. -/
theorem hg_ok (sgn : V3 ℝ → Bool) (g : ℝ) (hg : |g| < 1) (hE : Eps ≤ |g| ∨ g = 0) : PhaseOk (Volume.hg sgn g) where
  estimates := (C59_weights sgn g hg).1
  unbiased wi hw := C81_hg_partial sgn g wi hg hE hw
  density wi hw := by
    rcases hE with hE | rfl
    · exact C80_hg_partial sgn g wi hg hE hw
    · exact C80_hg_zero sgn wi hw
  eval wi hw := by
    have hw' := unit_neg hw
    refine ⟨fun d => V3.all (hgDensity g (V3.dot d (-wi))), ?_, fun d hd => ?_⟩
    · have : Measurable fun d : V3 ℝ => hgDensity g (V3.dot d (-wi)) := (measurable_hgDensity g).comp (measurable_dotc _)
      exact measurable_mk this this this
    · have hr := dot_range hd hw'
      have hp := (hgDensity_pos g _ hg hr.1 hr.2).le
      refine ⟨⟨hp, hp, hp⟩, ?_⟩
      have e : hgPdf g wi d = some (hgDensity g (V3.dot d (-wi))) := by
        rw [V3.dot_comm] at hr ⊢
        exact hgPdf_eq g wi d hg hr.1 hr.2
      show (hgPdf g wi d).map V3.all = _
      rw [e]; rfl
  sample wi hw := by
    rcases hE with hE | rfl
    · refine ⟨fun q => lin (orthonormalBasis (-wi) (sgn (-wi))).1 (orthonormalBasis (-wi) (sgn (-wi))).2 (-wi) (coneDir (hgc g q.1) q.2), (measurable_lin _ _ _).comp (measurable_cone (measurable_hgc g)), ?_⟩
      refine uniform2_ae.mono fun q hq => ?_
      simp only [Volume.hg, hgCos_eq g q.1 hg hE hq.1.1 hq.1.2.le]
      rfl
    · refine ⟨fun q => lin (orthonormalBasis (-wi) (sgn (-wi))).1 (orthonormalBasis (-wi) (sgn (-wi))).2 (-wi) (sampleUniformSphere q.1 q.2), (measurable_lin _ _ _).comp measurable_sphere, ?_⟩
      refine Filter.Eventually.of_forall fun q => ?_
      have : hgCos 0 q.1 = some (1 - 2 * q.1) := by simp [hgCos, Eps]
      simp only [Volume.hg, this]
      rfl

/-! ### Directions -/

theorem clear_neg {b : Box ℝ} {o d : V3 ℝ} : Clear b o (-d) ↔ Clear b o d := by
  simp [Clear, NoGraze]

/-- A point off the face planes of the bound: every direction will do. -/
def OffPlanes (b : Box ℝ) (p : V3 ℝ) : Prop := (p.x ≠ b.min.x ∧ p.x ≠ b.max.x) ∧ (p.y ≠ b.min.y ∧ p.y ≠ b.max.y) ∧ (p.z ≠ b.min.z ∧ p.z ≠ b.max.z)

theorem OffPlanes.clear {b : Box ℝ} {p : V3 ℝ} (h : OffPlanes b p) (d : V3 ℝ) : Clear b p d := ⟨fun _ => h.1, fun _ => h.2.1, fun _ => h.2.2⟩

/-- Primary rays. -/
theorem camera_clear {W : World} {n : Int} {cam : Camera} (hc : W.cameraAt n = some cam) (hp : cam.Proper) (b : Box ℝ) : ∀ᵐ u ∂uniform3, ∀ wo C, sampleDirection W ⟨u.1, u.2.1, u.2.2⟩ (camVertex W n cam) 0 0 .EL = .ok wo C →
    Clear b (camVertex W n cam).geom.p wo := by
  obtain ⟨N, hN, h0, hcl⟩ := clear_ae b (camVertex W n cam).geom.p
  have h1 := ((C80_camera cam W.junk hp 0 0 0).2 N hN).2
  rw [setLIntegral_measure_zero _ _ h0] at h1
  refine (first2.quasiMeasurePreserving.ae (measure_eq_zero_iff_ae_notMem.mp h1)).mono fun u hu wo C e => hcl wo fun hw => hu ⟨wo, ?_, hw⟩
  simp only [sampleDirection, camVertex, hc] at e
  simp only [camSampleRay]
  cases hr : primaryRay cam u.1 u.2.1 with
  | none => rw [hr] at e; cases e
  | some d => rw [hr] at e; cases e; rfl

/-- Directions scattered by a material whose reported density is right (C80). -/
theorem surface_clear {W : World} {sp : SI} (hk : sp.kind = .surface) {m : Mat} (hm : W.materialAt sp.primitive = some m) {wi : V3 ℝ} {c : ℕ} (hd : MaterialDensity m c sp.geom wi) (b : Box ℝ) :
    ∀ᵐ u ∂uniform3, ∀ wo C, sampleDirection W ⟨u.1, u.2.1, u.2.2⟩ sp wi c .EL = .ok wo C → Clear b sp.geom.p wo := by
  refine (clear_of_density (hd .EL) (withDensity_absolutelyContinuous _ _) b sp.geom.p).mono fun u hu wo C e => ?_
  rw [sample_surface hk hm] at e
  beta_reduce at hu
  cases hs : m.sampleDirection ⟨u.1, u.2.1, u.2.2⟩ sp.geom wi c .EL with
  | ok wo' C' => rw [hs] at e; cases e; exact hu _ _ hs
  | fail => rw [hs] at e; cases e
  | undef => rw [hs] at e; cases e

/-! ### Lights -/

/-- The constant environment. -/
theorem sky_seen {Q : Query} {node : Int} {M : Aff ℝ} (sgn : V3 ℝ → Bool) {junk : V3 ℝ} (Le c : V3 ℝ) (r : ℝ) {sp : SI} (h : SkyAt Q node junk sp) (hinf : ∀ d hit, Q.isect sp.geom.p d = some hit → hit.primitive = node → hit.geom.infinite = true)
    (b : Box ℝ) : LightSeen Q b node M (envconst sgn junk Le c r) sp := by
  have hc := clear_of_density (C80_isotropic 0) (Measure.AbsolutelyContinuous.refl _) b sp.geom.p
  refine Filter.Eventually.of_forall fun p => ?_
  filter_upwards [int2_ae, hc] with q hq hc g wo C e hv
  have hs : (envconst sgn junk Le c r).sampleDirect ⟨p.1, p.2.1, p.2.2, q.1, q.2⟩ sp.geom M =
    rayOrFail (makeInfinite (sampleUniformSphere q.1 q.2) junk junk) (sampleUniformSphere q.1 q.2) Le (some (convertSAtoProjSA pdfSphere sp.geom (-(sampleUniformSphere q.1 q.2)))) := rfl
  rw [hs] at e
  obtain ⟨h1, h2, _⟩ := rayOrFail_inv _ _ _ _ _ _ _ e (fun x hx => by cases hx; exact convert_nonneg pdfSphere pdfSphere_pos.le sp.geom _)
  subst h1
  rw [← h2] at hv ⊢
  have hun : V3.dot wo wo = 1 := by rw [h2]; exact (C34_sphere q.1 q.2 hq.1.1 hq.1.2.le).1
  obtain ⟨hit, hi, hpr⟩ := (h.visible wo hun).mp hv
  exact ⟨clear_neg.mpr (by rw [h2]; exact hc _ _ rfl), hit, hi, hinf _ hit hi hpr, fun _ => rfl, fun hf => by cases hf⟩

/-- Area lights; almost no sample may be in a direction inside a face plane. -/
theorem area_seen_at {Q : Query} {node : Int} {M : Aff ℝ} (sgn : V3 ℝ → Bool) (junk Ke : V3 ℝ) {ts : List Tri} (hA : 0 < (ts.map triArea).sum) (hM : M.det ≠ 0) (hS : ScalesArea M ts) {sp : SI} (h : AreaAt Q node M ts sp) (b : Box ℝ)
    (hc : ∀ᵐ p ∂uniform3, ∀ g wo C, (area sgn junk Ke ts).sampleDirect ⟨p.1, p.2.1, p.2.2, 0, 0⟩ sp.geom M = .ok g wo C → Clear b sp.geom.p (-wo)) : LightSeen Q b node M (area sgn junk Ke ts) sp := by
  have hz : (0 : ℝ) ≤ 0 ∧ (0 : ℝ) < 1 := ⟨le_rfl, one_pos⟩
  filter_upwards [area_inside sgn junk ts M hA hM 0 0 hz hz, area_apart sgn junk Ke ts M hA hM hS sp.geom.p 0 0, hc] with u hi hne hc
  refine Filter.Eventually.of_forall fun q g wo C e hv => ?_
  have e : (area sgn junk Ke ts).sampleDirect ⟨u.1, u.2.1, u.2.2, 0, 0⟩ sp.geom M = .ok g wo C := e
  refine ⟨hc g wo C e, ?_⟩
  obtain ⟨g', t, e', ht, hins, hn, hfin, hdeg⟩ := hi
  obtain ⟨es, hwo⟩ := area_direct_wo e
  rw [e'] at es; cases es
  obtain ⟨h', hi', hp', he'⟩ := (h.visible g hfin t ht hins (area_tilted hM e hn)).mp hv
  have hpos : 0 < V3.dot (g.p - sp.geom.p) (g.p - sp.geom.p) := by
    rcases (dot_self_nonneg (g.p - sp.geom.p)).eq_or_lt with h | h
    · exact absurd (sub_eq_zero.mp (dot_self_zero h.symm)) (hne g e')
    · exact h
  have hi2 : Q.isect sp.geom.p (-wo) = some h' := by rw [hwo, neg_neg]; exact hi'
  have hun : V3.dot (-wo) (-wo) = 1 := by rw [hwo, neg_neg]; exact (dirOf_spec hpos).1
  obtain ⟨hf2, _, _⟩ := h.ahead (-wo) h' hun hi2 hp'
  refine ⟨h', hi2, by rw [hf2, hfin], fun hf => absurd hf (by rw [hfin]; simp), fun _ => ⟨he', ?_⟩⟩
  rw [hwo, neg_neg]
  unfold Material.normalize dirOf
  rw [if_neg hpos.ne']

end LM.Transport
