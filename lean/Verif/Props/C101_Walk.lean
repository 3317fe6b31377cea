import Verif.Spec.FogLamps
import Verif.Props.C85_Nee
/-
  C101: volumetric path tracing with sources without extent: light sampling, and the walk.
-/
namespace LM.Transport
open MeasureTheory LM LM.Surface LM.Material LM.Light LM.Path LM.Render LM.Solid LM.Tracking
open scoped ENNReal

variable {Ω : Type} [MeasurableSpace Ω] {μ : Measure Ω} [IsProbabilityMeasure μ]

/-- What is required of light sampling through the medium at a vertex, where A is what arrives from lights without extent. -/
structure VolConnects2 (μ : Measure Ω) (W : World) (S : Optics) (F : Fog) (tr : Ω → SI → SI → Option (V3 ℝ)) (angle A : Measure (V3 ℝ)) (i : Fin 3) (sp : SI) : Prop where
  /-- averaged over its random numbers, a light sample estimates the emission seen from the vertex through the medium and what arrives from lights without extent -/
  light : ∀ G, Measurable G → (∀ d, G d ≠ ⊤) → averageLight (fun u => ∫⁻ t, trWorth i G (tr t sp) (sampleDirect W u sp .LE) ∂μ) = ∫⁻ d, F.seen S sp d * G d ∂angle + ∫⁻ d, G d ∂A
  /-- light samples and transmittances are defined -/
  sampled : Almost fun u => sampleDirect W u sp .LE ≠ .undef ∧ ∀ spL woL wL, sampleDirect W u sp .LE = .ok spL woL wL →
    ∀ᵐ t ∂μ, ∃ T, tr t sp spL = some T ∧ (T ≠ 0 → V3.dot woL woL = 1 ∧ NonNeg wL ∧ NonNeg T)

/-- What is required of a scene for light sampling; A is what arrives from lights without extent, glow what is scattered of it. -/
structure VolNeeSound2 (μ : Measure Ω) (W : World) (S : Optics) (F : Fog) (tr : Ω → SI → SI → Option (V3 ℝ)) (A : SI → Measure (V3 ℝ)) (glow : SI → V3 ℝ → ℕ → ℝ≥0∞) (i : Fin 3) (good : SI → V3 ℝ → Prop) : Prop where
  specular : ∀ sp wi, good sp wi → ∀ c ∈ S.comps sp wi, ∃ b, isSpecularComponent W sp c = some b ∧ (b = true → glow sp wi c = 0) ∧
    (b = false → ∃ angle bsdf, VolConnects2 μ W S F tr angle (A sp) i sp ∧ VolScatters W S angle bsdf i sp wi c ∧ glow sp wi c = ∫⁻ d, ENNReal.ofReal (chan i (bsdf d)) ∂A sp)
  measurable : ∀ k sp wi, good sp wi → Measurable (F.lit S glow k sp)
  /-- what the medium scatters is a measurable function of the point, for almost every sampled direction -/
  scattering : ∀ k sp wi, good sp wi → ∀ c ∈ S.comps sp wi, ∀ᵐ u ∂uniform3, ∀ wo C, sampleDirection W ⟨u.1, u.2.1, u.2.2⟩ sp wi c .EL = .ok wo C →
    Measurable fun p => S.scatteringOf (fun sp wi c => ∫⁻ d', F.lit S glow k sp d' ∂S.scatter sp wi c + if k = 0 then 0 else glow sp wi c) wo (F.vertex p)

/-- Averaged over the light samples: the emission seen from the vertex through the medium and what arrives from the lights without extent, scattered. -/
theorem neeVol_average2 (W : World) (S : Optics) (F : Fog) (dist) (tr : Ω → SI → SI → Option (V3 ℝ)) {angle A bsdf} (i : Fin 3) (good) (hS : VolSound μ W S F dist i good) (H : ℝ × ℝ → ℝ≥0∞) (hH : ∀ q, H q ≠ ⊤) (naive : Bool) (nv : ℕ) (hnv : 1 < nv) (st : St)
    (hg : good st.sp st.wi) (hC : VolConnects2 μ W S F tr angle A i st.sp) (hs : VolScatters W S angle bsdf i st.sp st.wi st.comp) (hthr : NonNeg st.thr) (hb : volByNee W naive nv st = some true) :
    averageLight (fun l => ∫⁻ t, measured i H (neeAt W tr naive t nv st l) ∂μ) =
      ENNReal.ofReal (chan i st.thr) * (∫⁻ d, onFilm W H nv st.rp d * ((if true then 1 else 0) * F.seen S st.sp d) ∂S.scatter st.sp st.wi st.comp + H st.rp * ∫⁻ d, ENNReal.ofReal (chan i (bsdf d)) ∂A) := by
  have hbm : Measurable fun d => ENNReal.ofReal (chan i (bsdf d)) := ((measurable_chan i).comp hs.measurable).ennreal_ofReal
  have hF : Measurable fun d => H st.rp * ENNReal.ofReal (chan i (bsdf d)) := hbm.const_mul _
  have hof : ∀ d, onFilm W H nv st.rp d = H st.rp := fun d => by rw [onFilm, if_neg (by omega)]
  have hG : Measurable fun d => H st.rp * F.seen S st.sp d := (hS.measurable_seen _ _ hg).const_mul _
  rw [averageLight_congr (g := fun u => ENNReal.ofReal (chan i st.thr) * ∫⁻ t, trWorth i (fun d => H st.rp * ENNReal.ofReal (chan i (bsdf d))) (tr t st.sp) (sampleDirect W u st.sp .LE) ∂μ)
    (Filter.Eventually.mono hC.sampled fun s hs1 => hs1.mono fun p hp => hp.mono fun q hq => by
      beta_reduce
      rw [← lintegral_const_mul' _ _ ENNReal.ofReal_ne_top]
      exact lintegral_congr_ae (neeVol_value W S i tr H naive nv hnv st hs hthr hb _ hq)), averageLight_mul _ ENNReal.ofReal_ne_top, hC.light _ hF (fun d => ENNReal.mul_ne_top (hH _) ENNReal.ofReal_ne_top), hs.scatter,
    lintegral_const_mul _ hbm]
  simp only [hof, if_true, one_mul]
  rw [lintegral_withDensity_eq_lintegral_mul _ hbm hG]
  congr 2
  refine lintegral_congr fun d => ?_
  simp only [Pi.mul_apply]
  ring

/-- What arrives and is scattered at a vertex, when k more iterations follow. -/
noncomputable def fogFrom (F : Fog) (S : Optics) (glow : SI → V3 ℝ → ℕ → ℝ≥0∞) (k : ℕ) (sp : SI) (wi : V3 ℝ) (c : ℕ) : ℝ≥0∞ :=
  ∫⁻ d, F.lit S glow k sp d ∂S.scatter sp wi c + if k = 0 then 0 else glow sp wi c

theorem fog_lit_succ {W S F dist i good} (hS : VolSound μ W S F dist i good) (glow) (k : ℕ) (sp : SI) (d : V3 ℝ) : F.lit S glow (k + 1) sp d = F.seen S sp d + F.behindOf S (fogFrom F S glow k) sp d := by
  unfold Fog.seen Fog.behindOf
  rw [← through_add, Fog.lit]
  have e : (fun p => S.scatteringOf (fogFrom F S glow k) d (F.vertex p)) = fun p => ∑ c ∈ S.comps (F.vertex p) (-d), (∫⁻ d', F.lit S glow k (F.vertex p) d' ∂S.scatter (F.vertex p) (-d) c + if k = 0 then 0 else glow (F.vertex p) (-d) c) := by
    funext p
    unfold Optics.scatteringOf
    rw [(hS.medium p).2]; rfl
  rw [e]
  congr 1
  unfold Optics.seen Optics.scatteringOf fogFrom
  cases S.isect sp.geom.p d <;> simp

/-- C101. With light sampling, in scenes with a medium and lights without extent: averaged over all random numbers, what a walk of k iterations from a vertex after the camera adds to the film is its throughput times the
    scattering of what arrives at the vertex through the medium, from surfaces, from the medium and from the lights without extent; from the camera, what arrives from surfaces and from the medium. -/
theorem C101_walk (W : World) (S : Optics) (F : Fog) (dist) (tr : Ω → SI → SI → Option (V3 ℝ)) (A glow) (i : Fin 3) (good) (hS : VolSound μ W S F dist i good) (hN : VolNeeSound2 μ W S F tr A glow i good)
    (q0 : ℝ) (hq0 : 0 ≤ q0) (hq1 : q0 < 1) (H : ℝ × ℝ → ℝ≥0∞) (hH : ∀ q, H q ≠ ⊤) (rs : ℕ → Rnd) (ms : ℕ → Ω × Ω) (k nv : ℕ)
    (hnv : 1 ≤ nv) (st : St) (hg : good st.sp st.wi) (hc : st.comp ∈ S.comps st.sp st.wi) (hthr : NonNeg st.thr) (hfilm : Measurable (onFilm W H nv st.rp))
    (hcam : nv = 1 → ∀ᵐ u ∂uniform3, ∀ wo C, sampleDirection W ⟨u.1, u.2.1, u.2.2⟩ st.sp st.wi st.comp .EL = .ok wo C → ∃ r, rasterAt W wo = some (some r)) :
    averageVol μ k nv rs ms (fun rs' ms' => measured i H (walk W (rouletteAt q0) (volBody W (volQuery dist tr ms') false) rs' k nv st)) =
      ENNReal.ofReal (chan i st.thr) * (∫⁻ d, onFilm W H nv st.rp d * F.lit S glow k st.sp d ∂S.scatter st.sp st.wi st.comp + if k = 0 ∨ nv = 1 then 0 else H st.rp * glow st.sp st.wi st.comp) := by
  induction k generalizing nv rs ms st with
  | zero => simp [averageVol, walk, measured, Fog.lit]
  | succ k ih =>
    have ih' : ∀ rs ms st, good st.sp st.wi → st.comp ∈ S.comps st.sp st.wi → NonNeg st.thr →
        averageVol μ k (nv + 1) rs ms (fun rs' ms' => measured i H (walk W (rouletteAt q0) (volBody W (volQuery dist tr ms') false) rs' k (nv + 1) st)) =
          ENNReal.ofReal (chan i st.thr) * (H st.rp * fogFrom F S glow k st.sp st.wi st.comp) := by
      intro rs ms st hg hc hthr
      have h2 : ∀ d, onFilm W H (nv + 1) st.rp d = H st.rp := fun d => by rw [onFilm, if_neg (by omega)]
      rw [ih rs ms (nv + 1) (by omega) st hg hc hthr (by rw [funext h2]; exact measurable_const) (fun h => absurd h (by omega))]
      simp_rw [h2]
      rw [lintegral_const_mul _ (hN.measurable k _ _ hg), fogFrom, mul_add]
      by_cases hk : k = 0
      · simp [hk]
      · rw [if_neg (by rintro (h | h); exact hk h; omega), if_neg hk]
        ring
    have hTm : Measurable (F.behindOf S (fogFrom F S glow k) st.sp) := by
      have : F.behindOf S (fogFrom F S glow k) st.sp = fun d => F.lit S glow (k + 1) st.sp d - F.seen S st.sp d := funext fun d => by
        rw [fog_lit_succ hS, ENNReal.add_sub_cancel_left (hS.seen_ne_top st.sp d)]
      rw [this]
      exact (hN.measurable (k + 1) _ _ hg).sub (hS.measurable_seen _ _ hg)
    simp_rw [fog_lit_succ hS]
    obtain ⟨b, hb0, hbt, hbf⟩ := hN.specular _ _ hg _ hc
    have hb : volByNee W false nv st = some (decide (nv > 1) && !b) := by
      unfold volByNee
      by_cases h1 : nv > 1
      · simp [hb0, h1]
      · simp [h1]
    by_cases hby : nv > 1 ∧ b = false
    · obtain ⟨h1, rfl⟩ := hby
      have hb : volByNee W false nv st = some true := by rw [hb]; simp [h1]
      obtain ⟨angle, bsdf, hC, hs, hgl⟩ := hbf rfl
      rw [if_neg (by omega), hgl]
      exact stepVol_average_of W S F dist tr i good hS q0 hq0 hq1 false H rs ms k nv (fogFrom F S glow k) _ st hg hc hthr ih' (hN.scattering k _ _ hg _ hc) hTm hfilm hH hcam true hb
        (neeVol_average2 W S F dist tr i good hS H hH false nv h1 st hg hC hs hthr hb)
    · have hb : volByNee W false nv st = some false := by
        rw [hb]
        cases b
        · have : ¬ nv > 1 := fun h => hby ⟨h, rfl⟩
          simp [this]
        · simp
      have hX : (if k + 1 = 0 ∨ nv = 1 then 0 else H st.rp * glow st.sp st.wi st.comp) = 0 := by
        by_cases h1 : nv = 1
        · rw [if_pos (.inr h1)]
        · have : b = true := by
            cases b
            · exact absurd ⟨by omega, rfl⟩ hby
            · rfl
          rw [hbt this]; simp
      rw [hX]
      refine stepVol_average_of W S F dist tr i good hS q0 hq0 hq1 false H rs ms k nv (fogFrom F S glow k) 0 st hg hc hthr ih' (hN.scattering k _ _ hg _ hc) hTm hfilm hH hcam false hb ?_
      have : ∀ t l, neeAt W tr false t nv st l = some [] := fun t l => by unfold neeAt volNee; rw [hb]; rfl
      simp [this, measured, averageLight_const]

end LM.Transport
