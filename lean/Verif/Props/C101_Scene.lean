import Verif.Props.C101_Lamps
import Verif.Props.C100_Scene
import Verif.Props.C85_Heterogeneous
/-
  C101: what the volumetric path tracers compute in scenes with a medium, point lights and directional lights.
-/
namespace LM.Transport
open MeasureTheory LM LM.Surface LM.Material LM.Light LM.MathF LM.Path LM.Render LM.Solid LM.Bound LM.Volume LM.Tracking
open scoped ENNReal

variable {Ω : Type} [MeasurableSpace Ω] {μ : Measure Ω} [IsProbabilityMeasure μ]

/-! ### The volumetric path tracer -/

/-- What the volumetric path tracer with light sampling computes, in terms of the requirements on the scene. -/
theorem volpt_lit (W : World) (S : Optics) (F : Fog) (dist) (tr : Ω → SI → SI → Option (V3 ℝ)) (A glow) (i : Fin 3) (good) (hS : VolSound μ W S F dist i good) (hN : VolNeeSound2 μ W S F tr A glow i good)
    (n : Int) (cam : Camera) (hn : W.st.camera = some n) (hcam : W.cameraAt n = some cam) (hp : cam.Proper) (hg : good (camVertex W n cam) 0) (h0 : 0 ∈ S.comps (camVertex W n cam) 0)
    (dir : ℝ × ℝ → V3 ℝ) (hdir : ∀ q, primaryRay cam q.1 q.2 = some (dir q)) (q0 : ℝ) (hq0 : 0 ≤ q0) (hq1 : q0 < 1) (maxVerts : ℕ)
    (H : ℝ × ℝ → ℝ≥0∞) (hH : Measurable H) (hHf : ∀ q, H q ≠ ⊤) (u : RaySampleU) (uc : ℝ) (rs : ℕ → Rnd) (ms : ℕ → Ω × Ω) :
    averageVol μ (maxVerts - 1) 1 rs ms (fun rs' ms' => measured i H (volSample W (volQuery dist tr ms') false q0 maxVerts u uc rs')) =
      ∫⁻ q, H q * F.lit S glow (maxVerts - 1) (camVertex W n cam) (dir q) ∂uniform2 := by
  have hstart : ptStart W uc u = some ⟨camVertex W n cam, 0, 0, V3.all 1, (0, 0)⟩ := by
    simp only [ptStart, samplePosition, hn, hcam, sampleComponent, Option.map_some, one_smul]
    rfl
  have hsamp : ∀ rs' ms', volSample W (volQuery dist tr ms') false q0 maxVerts u uc rs' = walk W (rouletteAt q0) (volBody W (volQuery dist tr ms') false) rs' (maxVerts - 1) 1 ⟨camVertex W n cam, 0, 0, V3.all 1, (0, 0)⟩ := fun rs' ms' => by
    unfold volSample
    rw [hstart]; rfl
  have hsd : ∀ v : DirU, sampleDirection W v (camVertex W n cam) 0 0 .EL = .ok (dir (v.ud0, v.ud1)) (V3.all 1) := fun v => by
    have := hdir (v.ud0, v.ud1)
    dsimp only at this
    simp only [sampleDirection, camVertex, hcam, this]
  have hon : ∀ q : ℝ × ℝ, (0 ≤ q.1 ∧ q.1 < 1) ∧ (0 ≤ q.2 ∧ q.2 < 1) → rasterAt W (dir q) = some (some q) := fun q hq => by
    have := C47_round_trip cam hp q.1 q.2 ⟨hq.1.1, hq.1.2.le⟩ ⟨hq.2.1, hq.2.2.le⟩
    rw [hdir q, Option.bind_some] at this
    simp only [rasterAt, hn, Option.bind_some, hcam, Option.map_some, this]
  have hfilm := measurable_onCamera W n cam hn hcam H hH (0, 0)
  have hone : chan i (V3.all (1 : ℝ)) = 1 := by fin_cases i <;> rfl
  simp_rw [hsamp]
  rw [C101_walk W S F dist tr A glow i good hS hN q0 hq0 hq1 H hHf rs ms (maxVerts - 1) 1 le_rfl _ hg h0 ⟨zero_le_one, zero_le_one, zero_le_one⟩ hfilm]
  · have hL : Measurable fun d => onFilm W H 1 (0, 0) d * F.lit S glow (maxVerts - 1) (camVertex W n cam) d := hfilm.mul (hN.measurable _ _ _ hg)
    dsimp only
    rw [if_pos (.inr rfl), add_zero, hone, ENNReal.ofReal_one, one_mul, ← hS.unbiased _ _ hg 0 h0 _ hL]
    simp_rw [hsd]
    simp only [worth, hone, ENNReal.ofReal_one, one_mul]
    rw [← lintegral_map_equiv_first (fun q => onFilm W H 1 (0, 0) (dir q) * F.lit S glow (maxVerts - 1) (camVertex W n cam) (dir q)) (hL.comp (measurable_dir hdir))]
    refine lintegral_congr_ae (int2_ae.mono fun q hq => ?_)
    simp [onFilm, hon q hq]
  · intro _
    filter_upwards [int3_ae] with v hv wo C hd
    rw [hsd] at hd
    cases hd
    exact ⟨_, hon (v.1, v.2.1) ⟨hv.1, hv.2.1⟩⟩

/-! ### Vertices away from point lights -/

/-- The point is not the position of a point light. -/
def AwayFrom (n : ℕ) (src : ℕ → Source) (x : V3 ℝ) : Prop := ∀ j < n, ∀ I p junk, src j = .point I p junk → x ≠ p

/-- Almost surely, sampled distances do not end at the point p. -/
def Avoids (μ : Measure Ω) (b : Box ℝ) (md : Ω → V3 ℝ → V3 ℝ → ℝ → ℝ → DistRes) (p : V3 ℝ) : Prop :=
  ∀ o d tmax, V3.dot d d = 1 → Clear b o d → ∀ᵐ s ∂μ, ∀ q C, md s o d 0 tmax = .ok q C true → q ≠ p

/-- Sampled distances almost never end at a given point if no sample has weight zero. -/
theorem avoids_of_weight {i : Fin 3} {F : Fog} {md : Ω → V3 ℝ → V3 ℝ → ℝ → ℝ → DistRes} {mt : Ω → V3 ℝ → V3 ℝ → ℝ → ℝ → Option (V3 ℝ)} (h : MediumOk μ i F md mt)
    (hm : ∀ o d tmax p, V3.dot d d = 1 → Clear F.bound o d → AEMeasurable (fun s => along i (Set.indicator {p} 1) 0 (md s o d 0 tmax)) μ)
    (hw : ∀ s o d tmax q C, md s o d 0 tmax = .ok q C true → 0 < chan i C) (p : V3 ℝ) : Avoids μ F.bound md p := by
  intro o d tmax hd hc
  have hmeas : Measurable (Set.indicator {p} (1 : V3 ℝ → ℝ≥0∞)) := measurable_one.indicator (measurableSet_singleton p)
  have h1 := h.distance o d tmax hc _ hmeas 0
  have hz : radiance F.bound (fun t => F.extinction (o + t • d)) (fun t => F.albedo (o + t • d)) o d 0 tmax (Set.indicator {p} 1) 0 = 0 := by
    unfold radiance
    rw [mul_zero, add_zero]
    have hnull : ∀ᵐ t ∂(volume : Measure ℝ).restrict (inside F.bound o d 0 tmax), o + t • d ≠ p := by
      refine ae_restrict_of_ae ?_
      have hfin : ({t : ℝ | o + t • d = p} : Set ℝ).Subsingleton := fun t ht t' ht' => by
        have e : (t - t') • d = 0 := by
          have h1 : o + t • d = p := ht
          have h2 : o + t' • d = p := ht'
          have h3 : t • d = t' • d := add_left_cancel (h1.trans h2.symm)
          rw [sub_smul, h3, sub_self]
        have : (t - t') * (t - t') = 0 := by
          have h4 : V3.dot ((t - t') • d) ((t - t') • d) = 0 := by rw [e]; simp [V3.dot]
          have h5 : V3.dot ((t - t') • d) ((t - t') • d) = (t - t') * (t - t') * V3.dot d d := by simp only [V3.dot, V3.smul_x, V3.smul_y, V3.smul_z]; ring
          rw [h5, hd, mul_one] at h4
          exact h4
        exact sub_eq_zero.mp (mul_self_eq_zero.mp this)
      rw [ae_iff]
      simp only [ne_eq, not_not]
      exact hfin.measure_zero _
    rw [lintegral_congr_ae (g := fun _ => 0) (hnull.mono fun t ht => by beta_reduce; rw [Set.indicator_of_notMem (by simpa using ht), mul_zero]), lintegral_zero]
  rw [hz, lintegral_eq_zero_iff' (hm o d tmax p hd hc)] at h1
  refine h1.mono fun s hs q C e hq => ?_
  subst hq
  simp only [e, along, Set.indicator_of_mem (Set.mem_singleton q), Pi.one_apply, mul_one, Pi.zero_apply, ENNReal.ofReal_eq_zero] at hs
  exact absurd (hw s o d tmax q C e) (not_lt.mpr hs)

/-- Homogeneous media. -/
theorem even_avoids (b : Box ℝ) (density : ℝ) (hd : 0 ≤ density) (albedo : V3 ℝ) (nz : V3 ℝ → Bool × Bool × Bool) (p : V3 ℝ) : Avoids uniform1 b (evenDist b density albedo nz) p := by
  intro o d tmax hd1 hc
  have hone : chan 0 (V3.all (1 : ℝ)) = 1 := rfl
  have hW := even_ok ⟨Scene.reset, fun _ => Light.point 0 0 0, fun _ => diffuse (fun _ => 0), fun _ => isotropic, fun _ => ⟨0, 0, 0, 0, 0, 0⟩, 0⟩ 0 b density hd (V3.all 1) ⟨zero_le_one, zero_le_one, zero_le_one⟩ nz 0
  have h := avoids_of_weight hW (fun o d tmax p _ hc => ?_) (fun s o d tmax q C e => ?_) p o d tmax hd1 hc
  · refine h.mono fun s hs q C e => ?_
    unfold evenDist homogeneousDistance at e
    split at e
    · cases e
    · rename_i a c hr
      split at e
      · rename_i hlt
        cases e
        refine hs _ (V3.all 1) ?_
        unfold evenDist homogeneousDistance
        rw [hr]
        simp only [if_pos hlt]
      · cases e
    · cases e
  · unfold evenDist homogeneousDistance
    rcases hr : isectRange b ⟨o, d, nz d⟩ (.fin 0) (.fin tmax) with _ | ⟨a, c⟩
    · exact aemeasurable_const
    · cases a <;> cases c <;> try exact aemeasurable_const
      rename_i a c
      dsimp only
      have hm : Measurable fun u : ℝ => -Real.log (1 - u) / density := ((Real.measurable_log.comp (measurable_const.sub measurable_id)).neg).div_const _
      have e : (fun s : ℝ => along 0 (Set.indicator {p} 1) 0 (if density ≠ 0 ∧ -Real.log (1 - s) / density < c - a then .ok (o + (a + -Real.log (1 - s) / density) • d) (V3.all 1) true else .ok (o + c • d) (V3.all 1) false)) =
          fun s => if density ≠ 0 ∧ -Real.log (1 - s) / density < c - a then ENNReal.ofReal 1 * Set.indicator {p} 1 (o + (a + -Real.log (1 - s) / density) • d) else 0 := by
        funext s
        split
        · simp only [along, hone]
        · simp only [along, mul_zero]
      rw [e]
      refine (Measurable.ite ((MeasurableSet.const _).inter (measurableSet_lt hm measurable_const)) (measurable_const.mul ?_) measurable_const).aemeasurable
      exact (measurable_one.indicator (measurableSet_singleton p)).comp ((measurable_ray o d).comp (measurable_const.add hm))
  · unfold evenDist homogeneousDistance at e
    split at e
    · cases e
    · split at e
      · cases e; rw [hone]; exact one_pos
      · cases e
    · cases e

/-- The point at which delta tracking ends does not depend on the albedo. -/
theorem delta_point (density albedo albedo' : Vol) (ha : ∀ p, albedo'.evalColor p = some (V3.all 1)) (r : RayK ℝ) (inv c : ℝ) (n : ℕ) : ∀ us : List ℝ, us.length ≤ n → ∀ t p C,
    deltaTracking density albedo r inv c t us = .done (some (p, C)) → deltaTracking density albedo' r inv c t us = .done (some (p, V3.all 1)) := by
  induction n using Nat.strong_induction_on with
  | _ n ih =>
    intro us hl t p C h
    match us, hl with
    | [], _ => rw [deltaTracking] at h; cases h
    | u1 :: us, hl =>
      rw [deltaTracking] at h ⊢
      by_cases h1 : t - Real.log (1 - u1) * inv ≥ c
      · simp [h1] at h
      · simp only [h1, if_false] at h ⊢
        cases he : density.evalScalar (r.o + (t - Real.log (1 - u1) * inv) • r.d) with
        | none => rw [he] at h; cases h
        | some d =>
          rw [he] at h
          match us, hl with
          | [], _ => cases h
          | u2 :: us, hl =>
            dsimp only at h ⊢
            by_cases h2 : d * inv > u2
            · simp only [h2, if_true, ha] at h ⊢
              cases hc : albedo.evalColor (r.o + (t - Real.log (1 - u1) * inv) • r.d) with
              | none => rw [hc] at h; cases h
              | some c =>
                rw [hc] at h
                cases h
                rfl
            · simp only [h2, if_false] at h ⊢
              exact ih us.length (by simp at hl; omega) us le_rfl _ p C h

/-- Heterogeneous media. -/
theorem cloud_avoids (density albedo : Vol) (hd : Majorized density) (hpos : density.maxScalar ≠ some 0) (f : V3 ℝ → ℝ) (hf : Measurable f) (hv : ∀ p, density.evalScalar p = some (f p)) (nz : V3 ℝ → Bool × Bool × Bool) (p : V3 ℝ) :
    Avoids uniforms density.bound (cloudDist density albedo nz) p := by
  intro o d tmax hd1 hc
  have hone : chan 0 (V3.all (1 : ℝ)) = 1 := rfl
  let white : Vol := { albedo with evalColor := fun _ => some (V3.all 1) }
  have hwhite : ∀ p, white.evalColor p = some (V3.all 1) := fun _ => rfl
  have hW := cloud_ok ⟨Scene.reset, fun _ => Light.point 0 0 0, fun _ => diffuse (fun _ => 0), fun _ => isotropic, fun _ => ⟨0, 0, 0, 0, 0, 0⟩, 0⟩ 0 density white hd hpos f hf hv (fun _ => V3.all 1) measurable_const
    (fun _ => ⟨zero_le_one, zero_le_one, zero_le_one⟩) hwhite nz 0
  have hweight : ∀ s o d tmax q C, cloudDist density white nz s o d 0 tmax = .ok q C true → C = V3.all 1 := by
    intro s o d tmax q C e
    unfold cloudDist settle at e
    split at e
    · rename_i r hr
      subst e
      obtain ⟨n, hn⟩ := runSeq_done hr
      unfold heterogeneousDistance at hn
      split at hn
      · cases hn
      · split at hn
        · cases hn
        · split at hn
          · cases hn
          · cases hn
          · cases hn
          · rename_i hdt
            cases hn
            have := delta_weight _ _ _ _ _ _ _ le_rfl _ _ _ hdt
            rw [hwhite] at this
            cases this; rfl
      · cases hn
    · cases e
  have h := avoids_of_weight hW (fun o d tmax p _ hc => ?_) (fun s o d tmax q C e => by rw [hweight s o d tmax q C e, hone]; exact one_pos) p o d tmax hd1 hc
  · refine h.mono fun s hs q C e => ?_
    unfold cloudDist settle at e
    split at e
    · rename_i r hr
      subst e
      obtain ⟨n, hn⟩ := runSeq_done hr
      refine hs q (V3.all 1) ?_
      have hw : heterogeneousDistance density white ⟨o, d, nz d⟩ 0 tmax (firstU n s) = .done (.ok q (V3.all 1) true) := by
        unfold heterogeneousDistance at hn ⊢
        split at hn
        · cases hn
        · rename_i a c hr
          split at hn
          · cases hn
          · rename_i inv hi
            split at hn
            · cases hn
            · cases hn
            · cases hn
            · rename_i hdt
              cases hn
              rw [delta_point density albedo white hwhite _ _ _ _ _ le_rfl _ _ _ hdt]
        · cases hn
      unfold cloudDist
      rw [(dist_steady density white ⟨o, d, nz d⟩ 0 tmax).run s (n := n) (by rw [hw]; simp), hw]
      rfl
    · cases e
  · have hL : Measurable (Set.indicator {p} (1 : V3 ℝ → ℝ≥0∞)) := measurable_one.indicator (measurableSet_singleton p)
    have hn : ∀ n, Measurable fun s => gain (along 0 (Set.indicator {p} 1) 0) (heterogeneousDistance density white ⟨o, d, nz d⟩ 0 tmax (firstU n s)) := by
      intro n
      unfold heterogeneousDistance
      split
      · exact measurable_const
      · split
        · exact measurable_const
        · rename_i a c _ _ inv _
          have h1 := (delta_measurable density white ⟨o, d, nz d⟩ inv c (fun t => f (o + t • d)) (hf.comp (measurable_ray o d)) (fun t => hv _) (fun _ => V3.all 1) (fun t => rfl)
            (fun x => match x with | none => along 0 (Set.indicator {p} 1) 0 .none | some (q, C) => along 0 (Set.indicator {p} 1) 0 (.ok q C true))
            (measurable_const.mul (hL.comp (measurable_ray o d))) n).1.comp ((measurable_const (a := a)).prodMk measurable_id)
          refine (congrArg Measurable (funext fun s => ?_)).mp h1
          simp only [Function.comp_apply, id_eq]
          rcases deltaTracking density white ⟨o, d, nz d⟩ inv c a (firstU n s) with _ | _ | (_ | ⟨p, C⟩) <;> rfl
      · exact measurable_const
    have hm : Measurable fun s => gain (along 0 (Set.indicator {p} 1) 0) (runSeq (heterogeneousDistance density white ⟨o, d, nz d⟩ 0 tmax) s) :=
      measurable_of_tendsto_metrizable hn (tendsto_pi_nhds.mpr fun s => (dist_steady density white ⟨o, d, nz d⟩ 0 tmax).run_tendsto _ s)
    refine ⟨_, hm, (hW.weight o d tmax hc).mono fun s hs => ?_⟩
    have hs := hs.1
    unfold cloudDist at hs ⊢
    cases hr : runSeq (heterogeneousDistance density white ⟨o, d, nz d⟩ 0 tmax) s with
    | more => rw [hr] at hs; exact absurd rfl hs
    | undef => rw [hr] at hs; exact absurd rfl hs
    | done r => simp only [settle, gain, hr]

/-! ### Scenes -/

/-- The requirements for tracing paths, for vertices with a property that vertices found by sampling almost surely have. -/
theorem VolSound.restrict {W S F dist i good} (hS : VolSound μ W S F dist i good) (P : SI → Prop)
    (hP : ∀ sp wi, good sp wi → ∀ c ∈ S.comps sp wi, ∀ᵐ u ∂uniform3, ∀ wo C, sampleDirection W ⟨u.1, u.2.1, u.2.2⟩ sp wi c .EL = .ok wo C → ∀ᵐ s ∂μ, ∀ hit wd, dist s sp wo = .ok hit wd → hit.geom.infinite = false → P hit) :
    VolSound μ W S F dist i (fun sp wi => good sp wi ∧ P sp) where
  emit := hS.emit
  medium := hS.medium
  surface := hS.surface
  unbiased sp wi hg := hS.unbiased sp wi hg.1
  next sp wi hg c hc := by
    filter_upwards [hS.next sp wi hg.1 c hc, hP sp wi hg.1 c hc] with u hu hp
    refine ⟨hu.1, fun wo C e => ?_⟩
    obtain ⟨h1, h2, h3, h4⟩ := hu.2 wo C e
    refine ⟨h1, h2, h3, ?_⟩
    filter_upwards [h4, hp wo C e] with s h5 h6
    exact ⟨h5.1, fun hit wd e' => ⟨(h5.2 hit wd e').1, (h5.2 hit wd e').2.1, fun hi => ⟨(h5.2 hit wd e').2.2 hi, h6 hit wd e' hi⟩⟩⟩
  select sp wi hg := hS.select sp wi hg.1
  measurable k sp wi hg := hS.measurable k sp wi hg.1

/-- One channel of what a component of a surface or of the medium scatters of what arrives through the medium from the lights without extent; nothing for specular components. -/
noncomputable def fogGlow (W : World) (Q : Query) (F : Fog) (i : Fin 3) (node : ℕ → Int) (src : ℕ → Source) (sp : SI) (wi : V3 ℝ) (c : ℕ) : ℝ≥0∞ :=
  if isSpecularComponent W sp c = some false then ∫⁻ d, Solid.value i (evalContrbDirection W sp wi d c .EL false) ∂shineThrough F Q i W.st.lights.length node src sp else 0

/-- One channel of the radiance arriving at sp from direction d through the medium after at most k - 1 scatterings, from lights with and without extent. -/
noncomputable def radianceThrough (W : World) (Q : Query) (F : Fog) (i : Fin 3) (comps : SI → V3 ℝ → Finset ℕ) (node : ℕ → Int) (src : ℕ → Source) : ℕ → SI → V3 ℝ → ℝ≥0∞ :=
  F.lit (optics W Q i comps) (fogGlow W Q F i node src)

/-- The vertices of paths: not at the position of a point light. -/
def LitVertex (W : World) (Q : Query) (n : Int) (cam : Camera) (nm : Int) (src : ℕ → Source) (sp : SI) (wi : V3 ℝ) : Prop := FogVertex W Q n cam nm sp wi ∧ AwayFrom W.st.lights.length src sp.geom.p

/-- What is required of a scene with a medium and its lights. -/
structure FoggyLit (μ : Measure Ω) (W : World) (Q : Query) (n : Int) (cam : Camera) (nm : Int) (comps : SI → V3 ℝ → Finset ℕ) (i : Fin 3) (F : Fog) (md : Ω → V3 ℝ → V3 ℝ → ℝ → ℝ → DistRes)
    (mt : Ω → V3 ℝ → V3 ℝ → ℝ → ℝ → Option (V3 ℝ)) (node : ℕ → Int) (M : ℕ → Aff ℝ) (Lt : ℕ → Light) (src : ℕ → Source) : Prop where
  foggy : Foggy μ W Q n cam nm comps i F md mt
  table : LightTable W node M Lt
  /-- point lights are not on surfaces, nor at the camera, and distances almost never end there -/
  off : ∀ o d hit, V3.dot d d = 1 → Q.isect o d = some hit → hit.geom.infinite = false → AwayFrom W.st.lights.length src hit.geom.p
  camera : AwayFrom W.st.lights.length src (camVertex W n cam).geom.p
  avoids : ∀ j < W.st.lights.length, ∀ I p junk, src j = .point I p junk → Avoids μ F.bound md p
  lights : ∀ sp wi, LitVertex W Q n cam nm src sp wi → LitThrough W Q F i node M Lt src sp
  /-- radiance is a measurable function of the direction, what is scattered a measurable function of the point -/
  measurable : ∀ k sp wi, LitVertex W Q n cam nm src sp wi → Measurable (radianceThrough W Q F i comps node src k sp)
  scattering : ∀ k d, V3.dot d d = 1 → Measurable fun p => (optics W Q i comps).scatteringOf (fun sp wi c => ∫⁻ d', radianceThrough W Q F i comps node src k sp d' ∂scattered W i sp wi c + if k = 0 then 0 else fogGlow W Q F i node src sp wi c)
    d (mediumVertex W nm p)

section
variable {W : World} {Q : Query} {n : Int} {cam : Camera} {nm : Int} {comps : SI → V3 ℝ → Finset ℕ} {i : Fin 3} {F : Fog} {md : Ω → V3 ℝ → V3 ℝ → ℝ → ℝ → DistRes} {mt : Ω → V3 ℝ → V3 ℝ → ℝ → ℝ → Option (V3 ℝ)}
  {node : ℕ → Int} {M : ℕ → Aff ℝ} {Lt : ℕ → Light} {src : ℕ → Source}

theorem FoggyLit.sound (h : FoggyLit μ W Q n cam nm comps i F md mt node M Lt src) : VolSound μ W (optics W Q i comps) F (fogDist W Q md) i (LitVertex W Q n cam nm src) := by
  refine h.foggy.sound.restrict (fun sp => AwayFrom W.st.lights.length src sp.geom.p) fun sp wi hv c hc => ?_
  refine (h.foggy.direction hv hc).mono fun u hu wo C e => ?_
  obtain ⟨_, hun, hcl⟩ := hu.2 wo C e
  have hav : ∀ᵐ s ∂μ, ∀ j ∈ Finset.range W.st.lights.length, ∀ I p junk, src j = .point I p junk → ∀ q C, md s sp.geom.p wo 0 (reach sp.geom.p (Q.isect sp.geom.p wo)) = .ok q C true → q ≠ p := by
    refine (Finset.eventually_all _).mpr fun j hj => ?_
    cases hs : src j with
    | extended => exact Filter.Eventually.of_forall fun s I p junk e => by cases e
    | beam => exact Filter.Eventually.of_forall fun s I p junk e => by cases e
    | point I p junk =>
      refine (h.avoids j (Finset.mem_range.mp hj) I p junk hs sp.geom.p wo (reach sp.geom.p (Q.isect sp.geom.p wo)) hun hcl).mono fun s h1 I' p' junk' e' => ?_
      cases e'
      exact h1
  filter_upwards [h.foggy.medium.weight _ _ (reach sp.geom.p (Q.isect sp.geom.p wo)) hcl, hav] with s hs hav hit wd e' hinf
  rcases ((fogDist_ok h.foggy.node hs).2 hit wd e').2 with hi | ⟨p, rfl⟩
  · exact h.off _ _ hit hun hi hinf
  · intro j hj I q junk hsrc
    refine hav j (Finset.mem_range.mpr hj) I q junk hsrc p wd ?_
    simp only [fogDist, sampleDistance, h.foggy.node, hitDistance_eq] at e'
    cases em : md s sp.geom.p wo 0 (reach sp.geom.p (Q.isect sp.geom.p wo)) with
    | none =>
      rw [em] at e'
      cases hi : Q.isect sp.geom.p wo with
      | none => rw [hi] at e'; cases e'
      | some x =>
        rw [hi] at e'
        cases e'
        exact absurd rfl (h.foggy.kind _ _ _ hi)
    | undef => rw [em] at e'; cases e'
    | ok p' C' m =>
      rw [em] at e'
      cases m with
      | true =>
        simp only [DRes.ok.injEq, mediumVertex, makeDegenerated, SI.mk.injEq, Geom.mk.injEq] at e'
        obtain ⟨⟨_, _, e1⟩, rfl⟩ := e'
        rw [e1.2.2.1]
      | false =>
        cases hi : Q.isect sp.geom.p wo with
        | none => rw [hi] at e'; cases e'
        | some x =>
          rw [hi] at e'
          cases e'
          exact absurd rfl (h.foggy.kind _ _ _ hi)

omit [MeasurableSpace Ω] in
theorem shineThrough_unit {sp : SI} (hl : LitBy W Q i node M Lt src sp) : ∀ᵐ d ∂shineThrough F Q i W.st.lights.length node src sp, V3.dot d d = 1 := by
  have hms : MeasurableSet {d : V3 ℝ | V3.dot d d = 1} := measurableSet_eq_fun measurable_dot measurable_const
  rw [ae_iff, shineThrough, Measure.finsetSum_apply]
  refine Finset.sum_eq_zero fun j hj => ?_
  rcases (hl.light j (Finset.mem_range.mp hj)).cases with ⟨e, _⟩ | ⟨b, e, hb⟩
  · rw [e]; rfl
  · rw [e]
    dsimp only
    split
    · rw [Measure.smul_apply, show {a : V3 ℝ | ¬ V3.dot a a = 1} = {d : V3 ℝ | V3.dot d d = 1}ᶜ from rfl, Measure.dirac_apply' _ hms.compl]
      simp [hb.unit]
    · rfl

/-- A scene with a medium whose lights meet the requirements meets those for light sampling. -/
theorem FoggyLit.nee (h : FoggyLit μ W Q n cam nm comps i F md mt node M Lt src) :
    VolNeeSound2 μ W (optics W Q i comps) F (fogTr W Q mt) (shineThrough F Q i W.st.lights.length node src) (fogGlow W Q F i node src) i (LitVertex W Q n cam nm src) where
  measurable := h.measurable
  scattering k sp wi hv c hc := by
    refine (h.foggy.direction hv.1 hc).mono fun u hu wo C e => ?_
    rw [h.foggy.vertex]
    exact h.scattering k wo (hu.2 wo C e).2.1
  specular sp wi hv c hc := by
    have hL := h.lights sp wi hv
    have hv := hv.1
    have hfin : sp.geom.infinite = false := by
      rcases hv with (⟨rfl, rfl⟩ | ⟨o, d, hd, hi, hinf, rfl⟩) | ⟨p, d, hd, rfl, rfl⟩
      · rfl
      · exact hinf
      · rfl
    have hcon := h.foggy.connects2 h.table hfin hL
    have hglow : ∀ {G : V3 ℝ → V3 ℝ}, isSpecularComponent W sp c = some false → (∀ d, V3.dot d d = 1 → evalContrbDirection W sp wi d c .EL false = some (G d)) →
        fogGlow W Q F i node src sp wi c = ∫⁻ d, ENNReal.ofReal (chan i (G d)) ∂shineThrough F Q i W.st.lights.length node src sp := by
      intro G hs hG
      unfold fogGlow
      rw [if_pos hs]
      refine lintegral_congr_ae ((shineThrough_unit hL.by_light).mono fun d hd => ?_)
      beta_reduce
      rw [hG d hd]; rfl
    rcases hv with (⟨rfl, rfl⟩ | ⟨o, d, hd, hi, hinf, rfl⟩) | ⟨p, d, hd, rfl, rfl⟩
    · have hc : c ∈ comps (camVertex W n cam) 0 := hc
      rw [h.foggy.regular.single, Finset.mem_singleton] at hc
      subst hc
      obtain ⟨P, hP, hPe⟩ := cam_measurable h.foggy.regular.proper
      have he : ∀ d e, evalContrbDirection W (camVertex W n cam) 0 d 0 .EL e = some (V3.all (P d)) := fun d e => by simp only [evalContrbDirection, camVertex, h.foggy.regular.camera, (hPe d).2.1]
      refine ⟨false, rfl, fun e => (by cases e), fun _ => ⟨_, fun d => V3.all (P d), hcon, ?_, hglow rfl fun d _ => he d false⟩⟩
      refine ⟨?_, measurable_mk hP hP hP, fun d _ => ⟨he d true, ⟨(hPe d).2.2, (hPe d).2.2, (hPe d).2.2⟩⟩⟩
      show scattered W i (camVertex W n cam) 0 0 = _
      unfold scattered
      have : isSpecularComponent W (camVertex W n cam) 0 = some false := rfl
      rw [this]
      dsimp only
      congr 1
      funext d
      rw [he d false]; rfl
    · obtain ⟨hk, hdeg, hon, hgr, m, hm, hok⟩ := h.foggy.regular.surface o d sp hd hi hinf
      rcases hok.comp c hc with hs | hs
      · have hspec : isSpecularComponent W sp c = some false := by simp only [isSpecularComponent, hk, hm, Option.bind_some, hs.kind]
        obtain ⟨G, hG, hGe⟩ := hs.eval
        have he : ∀ d', V3.dot d' d' = 1 → ∀ e, evalContrbDirection W sp (-d) d' c .EL e = some (shadingNormalCorrection sp.geom (-d) d' .EL • G d') := fun d' hd' e => by
          simp only [evalContrbDirection, hk, hm, Option.bind_some, (hGe d' hd').2 e, Option.map_some]
        refine ⟨false, hspec, fun e => (by cases e), fun _ => ⟨_, fun d' => shadingNormalCorrection sp.geom (-d) d' .EL • G d', hcon, ?_, hglow hspec fun d' hd' => he d' hd' false⟩⟩
        refine ⟨?_, measurable_smul3 (measurable_snc _ _) hG, fun d' hd' => ⟨he d' hd' true, nonneg_smul (snc_nonneg _ _ _) (hGe d' hd').1⟩⟩
        show scattered W i sp (-d) c = _
        unfold scattered
        rw [hspec]
        dsimp only
        refine withDensity_congr_ae ((solidAngleAt_unit sp.geom).mono fun d' hd' => ?_)
        beta_reduce
        rw [he d' hd' false]; rfl
      · have hspec : isSpecularComponent W sp c = some true := by simp only [isSpecularComponent, hk, hm, Option.bind_some, hs.kind]
        exact ⟨true, hspec, fun _ => by simp [fogGlow, hspec], fun e => by cases e⟩
    · obtain ⟨ph, hp, ho⟩ := h.foggy.phase
      obtain ⟨G, hG, hGe⟩ := ho.eval _ (unit_neg hd)
      have he : ∀ d', V3.dot d' d' = 1 → ∀ e, evalContrbDirection W (mediumVertex W nm p) (-d) d' c .EL e = some (G d') := fun d' hd' e => by
        simp only [evalContrbDirection, mediumVertex, hp, Option.bind_some, (hGe d' hd').2]
      refine ⟨false, rfl, fun e => (by cases e), fun _ => ⟨_, G, hcon, ⟨?_, hG, fun d' hd' => ⟨he d' hd' true, (hGe d' hd').1⟩⟩, hglow rfl fun d' hd' => he d' hd' false⟩⟩
      show scattered W i (mediumVertex W nm p) (-d) c = _
      rw [phase_scatter hp]
      have e : solidAngleAt (mediumVertex W nm p).geom = solidAngle := by simp [solidAngleAt, mediumVertex, makeDegenerated]
      rw [e]
      exact withDensity_congr_ae (solidAngle_unit.mono fun d' hd' => by beta_reduce; rw [(hGe d' hd').2]; rfl)

/-- C101. What the volumetric path tracer with light sampling computes in a scene with a medium, point lights, directional lights and lights with extent: for every roulette parameter in [0,1), the integral over the film
    of the radiance arriving through the medium along the primary rays. -/
theorem C101_scene (h : FoggyLit μ W Q n cam nm comps i F md mt node M Lt src) (dir : ℝ × ℝ → V3 ℝ) (hdir : ∀ q, primaryRay cam q.1 q.2 = some (dir q)) (q0 : ℝ) (hq0 : 0 ≤ q0) (hq1 : q0 < 1) (maxVerts : ℕ)
    (H : ℝ × ℝ → ℝ≥0∞) (hH : Measurable H) (hHf : ∀ q, H q ≠ ⊤) (u : RaySampleU) (uc : ℝ) (rs : ℕ → Rnd) (ms : ℕ → Ω × Ω) :
    averageVol μ (maxVerts - 1) 1 rs ms (fun rs' ms' => measured i H (volSample W (volQuery (fogDist W Q md) (fogTr W Q mt) ms') false q0 maxVerts u uc rs')) =
      ∫⁻ q, H q * radianceThrough W Q F i comps node src (maxVerts - 1) (camVertex W n cam) (dir q) ∂uniform2 :=
  volpt_lit W _ F _ _ _ _ i _ h.sound h.nee n cam h.foggy.camera h.foggy.regular.camera h.foggy.regular.proper ⟨.inl (.inl ⟨rfl, rfl⟩), h.camera⟩ (by show 0 ∈ comps _ _; rw [h.foggy.regular.single]; simp) dir hdir q0 hq0 hq1
    maxVerts H hH hHf u uc rs ms

/-- C101. Without light sampling, the volumetric path tracer computes the radiance from the lights with extent alone, in every scene with a medium and whatever other lights it has. -/
theorem C101_naive (h : Foggy μ W Q n cam nm comps i F md mt) (dir : ℝ × ℝ → V3 ℝ) (hdir : ∀ q, primaryRay cam q.1 q.2 = some (dir q)) (q0 : ℝ) (hq0 : 0 ≤ q0) (hq1 : q0 < 1) (maxVerts : ℕ)
    (H : ℝ × ℝ → ℝ≥0∞) (hH : Measurable H) (hHf : ∀ q, H q ≠ ⊤) (u : RaySampleU) (uc : ℝ) (rs : ℕ → Rnd) (ms : ℕ → Ω × Ω) :
    averageVol μ (maxVerts - 1) 1 rs ms (fun rs' ms' => measured i H (volSample W (volQuery (fogDist W Q md) (fogTr W Q mt) ms') true q0 maxVerts u uc rs')) =
      ∫⁻ q, H q * F.incoming (optics W Q i comps) (maxVerts - 1) (camVertex W n cam) (dir q) ∂uniform2 :=
  C85_scene h (node := fun _ => 0) (M := fun _ => 1) (Lt := fun _ => Light.point 0 0 0) true (fun e => by cases e) dir hdir q0 hq0 hq1 maxVerts H hH hHf u uc rs ms

end

end LM.Transport
