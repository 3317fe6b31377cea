import Verif.Props.C85_Walk
import Verif.Props.C82_Path
/-
  C85: light sampling through the medium, and the volumetric path tracers.
-/
namespace LM.Transport
open MeasureTheory LM LM.Surface LM.Material LM.Light LM.Path LM.Render LM.Solid LM.Tracking
open scoped ENNReal

variable {Ω : Type} [MeasurableSpace Ω] {μ : Measure Ω} [IsProbabilityMeasure μ]

/-- One channel of a light sample at sp, weighted with the transmittance towards it and with a function of the direction towards the light. -/
noncomputable def trWorth (i : Fin 3) (G : V3 ℝ → ℝ≥0∞) (tr : SI → Option (V3 ℝ)) : SRes → ℝ≥0∞
  | .ok spL woL wL => match tr spL with
    | none => ⊤
    | some T => ENNReal.ofReal (chan i T) * (ENNReal.ofReal (chan i wL) * G (-woL))
  | .fail => 0
  | .undef => ⊤

/-- What is required of light sampling through the medium at a vertex; `angle` is the measure of directions with respect to which scattering functions are given. -/
structure VolConnects (μ : Measure Ω) (W : World) (S : Optics) (F : Fog) (tr : Ω → SI → SI → Option (V3 ℝ)) (angle : Measure (V3 ℝ)) (i : Fin 3) (sp : SI) : Prop where
  /-- averaged over its random numbers, a light sample estimates the emission seen from the vertex through the medium -/
  light : ∀ G, Measurable G → (∀ d, G d ≠ ⊤) → averageLight (fun u => ∫⁻ t, trWorth i G (tr t sp) (sampleDirect W u sp .LE) ∂μ) = ∫⁻ d, F.seen S sp d * G d ∂angle
  /-- light samples and transmittances are defined -/
  sampled : Almost fun u => sampleDirect W u sp .LE ≠ .undef ∧ ∀ spL woL wL, sampleDirect W u sp .LE = .ok spL woL wL →
    ∀ᵐ t ∂μ, ∃ T, tr t sp spL = some T ∧ (T ≠ 0 → V3.dot woL woL = 1 ∧ NonNeg wL ∧ NonNeg T)

/-- What is required of a non-specular component of a vertex: its scattering function. -/
structure VolScatters (W : World) (S : Optics) (angle : Measure (V3 ℝ)) (bsdf : V3 ℝ → V3 ℝ) (i : Fin 3) (sp : SI) (wi : V3 ℝ) (c : ℕ) : Prop where
  scatter : S.scatter sp wi c = angle.withDensity fun d => ENNReal.ofReal (chan i (bsdf d))
  measurable : Measurable bsdf
  eval : ∀ d, V3.dot d d = 1 → evalContrbDirection W sp wi d c .EL true = some (bsdf d) ∧ NonNeg (bsdf d)

/-- What is required of a scene for light sampling. -/
def VolNeeSound (μ : Measure Ω) (W : World) (S : Optics) (F : Fog) (tr : Ω → SI → SI → Option (V3 ℝ)) (i : Fin 3) (good : SI → V3 ℝ → Prop) : Prop :=
  ∀ sp wi, good sp wi → ∀ c ∈ S.comps sp wi, ∃ b, isSpecularComponent W sp c = some b ∧ (b = false → ∃ angle bsdf, VolConnects μ W S F tr angle i sp ∧ VolScatters W S angle bsdf i sp wi c)

omit [IsProbabilityMeasure μ] in
/-- What light sampling adds at a non-specular vertex. -/
theorem neeVol_value (W : World) (S : Optics) (i : Fin 3) (tr : Ω → SI → SI → Option (V3 ℝ)) {angle bsdf} (H : ℝ × ℝ → ℝ≥0∞) (naive : Bool) (nv : ℕ) (hnv : 1 < nv) (st : St) (hs : VolScatters W S angle bsdf i st.sp st.wi st.comp)
    (hthr : NonNeg st.thr) (hb : volByNee W naive nv st = some true) (u : RaySampleU)
    (hu : sampleDirect W u st.sp .LE ≠ .undef ∧ ∀ spL woL wL, sampleDirect W u st.sp .LE = .ok spL woL wL → ∀ᵐ t ∂μ, ∃ T, tr t st.sp spL = some T ∧ (T ≠ 0 → V3.dot woL woL = 1 ∧ NonNeg wL ∧ NonNeg T)) :
    ∀ᵐ t ∂μ, measured i H (neeAt W tr naive t nv st u) =
      ENNReal.ofReal (chan i st.thr) * trWorth i (fun d => H st.rp * ENNReal.ofReal (chan i (bsdf d))) (tr t st.sp) (sampleDirect W u st.sp .LE) := by
  obtain ⟨hdef, hok⟩ := hu
  have h1 : ¬ nv = 1 := by omega
  unfold neeAt volNee
  rw [hb]
  simp only [Option.bind_eq_bind, Option.bind_some, if_true]
  cases hd : sampleDirect W u st.sp .LE with
  | undef => exact absurd hd hdef
  | fail => exact Filter.Eventually.of_forall fun t => by simp [trWorth, measured]
  | ok spL woL wL =>
    filter_upwards [hok spL woL wL hd] with t ht
    obtain ⟨T, hT, hT'⟩ := ht
    dsimp only [trWorth]
    simp only [if_neg h1, hT, Option.bind_some]
    by_cases hz : T = 0
    · simp [hz, measured, chan_zero]
    · obtain ⟨hun, hwL, hTn⟩ := hT' hz
      have hu1 : V3.dot (-woL) (-woL) = 1 := by rw [← hun]; simp [V3.dot]
      obtain ⟨e1, e2⟩ := hs.eval _ hu1
      rw [if_neg hz, e1, Option.bind_some]
      by_cases hf : bsdf (-woL) = 0
      · simp [hf, measured, chan_zero]
      · rw [if_neg hf]
        simp only [Option.pure_def, measured, List.map_cons, List.map_nil, List.sum_cons, List.sum_nil, add_zero]
        have hTf : 0 ≤ chan i st.thr * chan i T := mul_nonneg (chan_nonneg hthr i) (chan_nonneg hTn i)
        rw [chan_mul, chan_mul, chan_mul, ENNReal.ofReal_mul (mul_nonneg hTf (chan_nonneg e2 i)), ENNReal.ofReal_mul hTf, ENNReal.ofReal_mul (chan_nonneg hthr i)]
        ring

/-- Averaged over the light samples: the emission seen from the vertex through the medium, scattered. -/
theorem neeVol_average (W : World) (S : Optics) (F : Fog) (dist) (tr : Ω → SI → SI → Option (V3 ℝ)) {angle bsdf} (i : Fin 3) (good) (hS : VolSound μ W S F dist i good) (H : ℝ × ℝ → ℝ≥0∞) (hH : ∀ q, H q ≠ ⊤) (naive : Bool) (nv : ℕ) (hnv : 1 < nv) (st : St)
    (hg : good st.sp st.wi) (hC : VolConnects μ W S F tr angle i st.sp) (hs : VolScatters W S angle bsdf i st.sp st.wi st.comp) (hthr : NonNeg st.thr) (hb : volByNee W naive nv st = some true) :
    averageLight (fun l => ∫⁻ t, measured i H (neeAt W tr naive t nv st l) ∂μ) =
      ENNReal.ofReal (chan i st.thr) * ∫⁻ d, onFilm W H nv st.rp d * ((if true then 1 else 0) * F.seen S st.sp d) ∂S.scatter st.sp st.wi st.comp := by
  have hbm : Measurable fun d => ENNReal.ofReal (chan i (bsdf d)) := ((measurable_chan i).comp hs.measurable).ennreal_ofReal
  have hF : Measurable fun d => H st.rp * ENNReal.ofReal (chan i (bsdf d)) := hbm.const_mul _
  have hof : ∀ d, onFilm W H nv st.rp d = H st.rp := fun d => by rw [onFilm, if_neg (by omega)]
  have hG : Measurable fun d => H st.rp * F.seen S st.sp d := (hS.measurable_seen _ _ hg).const_mul _
  rw [averageLight_congr (g := fun u => ENNReal.ofReal (chan i st.thr) * ∫⁻ t, trWorth i (fun d => H st.rp * ENNReal.ofReal (chan i (bsdf d))) (tr t st.sp) (sampleDirect W u st.sp .LE) ∂μ)
    (Filter.Eventually.mono hC.sampled fun s hs1 => hs1.mono fun p hp => hp.mono fun q hq => by
      beta_reduce
      rw [← lintegral_const_mul' _ _ ENNReal.ofReal_ne_top]
      exact lintegral_congr_ae (neeVol_value W S i tr H naive nv hnv st hs hthr hb _ hq)), averageLight_mul _ ENNReal.ofReal_ne_top, hC.light _ hF (fun d => ENNReal.mul_ne_top (hH _) ENNReal.ofReal_ne_top), hs.scatter]
  simp only [hof, if_true, one_mul]
  rw [lintegral_withDensity_eq_lintegral_mul _ hbm hG]
  congr 1
  refine lintegral_congr fun d => ?_
  simp only [Pi.mul_apply]
  ring

/-! ### The walk -/

/-- C85. With or without light sampling, averaged over all random numbers, what a walk of k iterations from a vertex adds to the film is its throughput times the scattering of what arrives at the vertex
    through the medium. -/
theorem C85_walk (W : World) (S : Optics) (F : Fog) (dist) (tr : Ω → SI → SI → Option (V3 ℝ)) (i : Fin 3) (good) (hS : VolSound μ W S F dist i good) (naive : Bool) (hN : naive = false → VolNeeSound μ W S F tr i good)
    (q0 : ℝ) (hq0 : 0 ≤ q0) (hq1 : q0 < 1) (H : ℝ × ℝ → ℝ≥0∞) (hH : ∀ q, H q ≠ ⊤) (rs : ℕ → Rnd) (ms : ℕ → Ω × Ω) (k nv : ℕ)
    (hnv : 1 ≤ nv) (st : St) (hg : good st.sp st.wi) (hc : st.comp ∈ S.comps st.sp st.wi) (hthr : NonNeg st.thr) (hfilm : Measurable (onFilm W H nv st.rp))
    (hcam : nv = 1 → ∀ᵐ u ∂uniform3, ∀ wo C, sampleDirection W ⟨u.1, u.2.1, u.2.2⟩ st.sp st.wi st.comp .EL = .ok wo C → ∃ r, rasterAt W wo = some (some r)) :
    averageVol μ k nv rs ms (fun rs' ms' => measured i H (walk W (rouletteAt q0) (volBody W (volQuery dist tr ms') naive) rs' k nv st)) =
      ENNReal.ofReal (chan i st.thr) * ∫⁻ d, onFilm W H nv st.rp d * F.incoming S k st.sp d ∂S.scatter st.sp st.wi st.comp := by
  induction k generalizing nv rs ms st with
  | zero => simp [averageVol, walk, measured, Fog.incoming]
  | succ k ih =>
    have ih' : ∀ rs ms st, good st.sp st.wi → st.comp ∈ S.comps st.sp st.wi → NonNeg st.thr →
        averageVol μ k (nv + 1) rs ms (fun rs' ms' => measured i H (walk W (rouletteAt q0) (volBody W (volQuery dist tr ms') naive) rs' k (nv + 1) st)) =
          ENNReal.ofReal (chan i st.thr) * (H st.rp * ∫⁻ d, F.incoming S k st.sp d ∂S.scatter st.sp st.wi st.comp) := by
      intro rs ms st hg hc hthr
      have h2 : ∀ d, onFilm W H (nv + 1) st.rp d = H st.rp := fun d => by rw [onFilm, if_neg (by omega)]
      rw [ih rs ms (nv + 1) (by omega) st hg hc hthr (by rw [funext h2]; exact measurable_const) (fun h => absurd h (by omega))]
      simp_rw [h2]
      rw [lintegral_const_mul _ (hS.measurable k _ _ hg)]
    have hb : volByNee W naive nv st = some false ∨ (naive = false ∧ 1 < nv ∧ volByNee W naive nv st = some true ∧ isSpecularComponent W st.sp st.comp = some false) := by
      unfold volByNee
      cases naive
      · by_cases h1 : nv > 1
        · obtain ⟨b, hb, _⟩ := hN rfl _ _ hg _ hc
          cases b <;> simp [hb, h1]
        · left; simp [h1]
      · left; rfl
    rcases hb with hb | ⟨hm, hn, hb, hsp⟩
    · refine stepVol_average W S F dist tr i good hS q0 hq0 hq1 naive H rs ms k nv st hg hc hthr ih' hfilm hH hcam false hb ?_
      have : ∀ t l, neeAt W tr naive t nv st l = some [] := fun t l => by unfold neeAt volNee; rw [hb]; rfl
      simp [this, measured, averageLight_const]
    · obtain ⟨b, hb', hcs⟩ := hN hm _ _ hg _ hc
      rw [hsp] at hb'
      cases hb'
      obtain ⟨angle, bsdf, hC, hs⟩ := hcs rfl
      exact stepVol_average W S F dist tr i good hS q0 hq0 hq1 naive H rs ms k nv st hg hc hthr ih' hfilm hH hcam true hb (neeVol_average W S F dist tr i good hS H hH naive nv hn st hg hC hs hthr hb)

/-- C85. What the volumetric path tracers compute. For every roulette parameter in [0,1) and every maximal length of paths: the average over all random numbers of what one sample adds to the film, weighted with
    any finite function H of the position on the film, is the integral over the film of H times the radiance arriving at the camera through the medium along the primary ray through the position, up to the
    maximal length of paths. -/
theorem C85_volpt (W : World) (S : Optics) (F : Fog) (dist) (tr : Ω → SI → SI → Option (V3 ℝ)) (i : Fin 3) (good) (hS : VolSound μ W S F dist i good) (naive : Bool) (hN : naive = false → VolNeeSound μ W S F tr i good)
    (n : Int) (cam : Camera) (hn : W.st.camera = some n) (hcam : W.cameraAt n = some cam) (hp : cam.Proper) (hg : good (camVertex W n cam) 0) (h0 : 0 ∈ S.comps (camVertex W n cam) 0)
    (dir : ℝ × ℝ → V3 ℝ) (hdir : ∀ q, primaryRay cam q.1 q.2 = some (dir q)) (q0 : ℝ) (hq0 : 0 ≤ q0) (hq1 : q0 < 1) (maxVerts : ℕ)
    (H : ℝ × ℝ → ℝ≥0∞) (hH : Measurable H) (hHf : ∀ q, H q ≠ ⊤) (u : RaySampleU) (uc : ℝ) (rs : ℕ → Rnd) (ms : ℕ → Ω × Ω) :
    averageVol μ (maxVerts - 1) 1 rs ms (fun rs' ms' => measured i H (volSample W (volQuery dist tr ms') naive q0 maxVerts u uc rs')) =
      ∫⁻ q, H q * F.incoming S (maxVerts - 1) (camVertex W n cam) (dir q) ∂uniform2 := by
  have hstart : ptStart W uc u = some ⟨camVertex W n cam, 0, 0, V3.all 1, (0, 0)⟩ := by
    simp only [ptStart, samplePosition, hn, hcam, sampleComponent, Option.map_some, one_smul]
    rfl
  have hsamp : ∀ rs' ms', volSample W (volQuery dist tr ms') naive q0 maxVerts u uc rs' = walk W (rouletteAt q0) (volBody W (volQuery dist tr ms') naive) rs' (maxVerts - 1) 1 ⟨camVertex W n cam, 0, 0, V3.all 1, (0, 0)⟩ := fun rs' ms' => by
    unfold volSample
    rw [hstart]; rfl
  have hsd : ∀ v : DirU, sampleDirection W v (camVertex W n cam) 0 0 .EL = .ok (dir (v.ud0, v.ud1)) (V3.all 1) := fun v => by
    have := hdir (v.ud0, v.ud1)
    dsimp only at this
    simp only [sampleDirection, camVertex, hcam, this]
  have hon : ∀ q : ℝ × ℝ, (0 ≤ q.1 ∧ q.1 < 1) ∧ (0 ≤ q.2 ∧ q.2 < 1) → rasterAt W (dir q) = some (some q) := fun q hq => by
    have := C47_round_trip cam hp q.1 q.2 ⟨hq.1.1, hq.1.2.le⟩ ⟨hq.2.1, hq.2.2.le⟩
    rw [hdir q, Option.bind_some] at this
    simp only [rasterAt, hn, Option.bind_some, hcam, Option.map_some, this]
  have hfilm := measurable_onCamera W n cam hn hcam H hH (0, 0)
  have hone : chan i (V3.all (1 : ℝ)) = 1 := by fin_cases i <;> rfl
  simp_rw [hsamp]
  rw [C85_walk W S F dist tr i good hS naive hN q0 hq0 hq1 H hHf rs ms (maxVerts - 1) 1 le_rfl _ hg h0 ⟨zero_le_one, zero_le_one, zero_le_one⟩ hfilm]
  · have hL : Measurable fun d => onFilm W H 1 (0, 0) d * F.incoming S (maxVerts - 1) (camVertex W n cam) d := hfilm.mul (hS.measurable _ _ _ hg)
    dsimp only
    rw [hone, ENNReal.ofReal_one, one_mul, ← hS.unbiased _ _ hg 0 h0 _ hL]
    simp_rw [hsd]
    simp only [worth, hone, ENNReal.ofReal_one, one_mul]
    rw [← lintegral_map_equiv_first (fun q => onFilm W H 1 (0, 0) (dir q) * F.incoming S (maxVerts - 1) (camVertex W n cam) (dir q)) (hL.comp (measurable_dir hdir))]
    refine lintegral_congr_ae (int2_ae.mono fun q hq => ?_)
    simp [onFilm, hon q hq]
  · intro _
    filter_upwards [int3_ae] with v hv wo C hd
    rw [hsd] at hd
    cases hd
    exact ⟨_, hon (v.1, v.2.1) ⟨hv.1, hv.2.1⟩⟩

end LM.Transport
