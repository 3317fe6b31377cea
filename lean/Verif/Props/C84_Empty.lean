import Verif.Props.C84_Volumes
import Verif.Model.EmptyMedium
/-
  C84 for densities that are zero everywhere, with IEEE arithmetic.
-/
namespace LM.Tracking
open MeasureTheory LM LM.Solid LM.Volume LM.Bound LM.MathF LM.Material LM.Surface Set
open scoped ENNReal Topology

/-! ### With a positive maximum the loops are those of Model/Volume -/

theorem step_fin (x t u : ℝ) : ieeeStep (.fin x) (.fin t) u = .fin (t - Real.log (1 - u) * x) := rfl

theorem ege_fin (a b : ℝ) : ege (.fin a) (.fin b) = decide (a ≥ b) := by
  simp only [ege, elt]
  by_cases h : a < b
  · simp [h]
  · simp [h, not_lt.mp h]

theorem delta_fin (density albedo : Vol) (r : RayK ℝ) (junk : Option ℝ) (odd : DistRes) (x c : ℝ) (us : List ℝ) : ∀ t, ieeeDelta density albedo r junk odd (.fin x) c (.fin t) us =
    match deltaTracking density albedo r x c t us with
    | .more => .more
    | .undef => .undef
    | .done none => .done .none
    | .done (some (p, w)) => .done (.ok p w true) := by
  induction us using List.twoStepInduction with
  | nil => intro t; simp [ieeeDelta, deltaTracking]
  | singleton u =>
    intro t
    unfold ieeeDelta deltaTracking
    simp only [step_fin, ege_fin, ieeeDensity, decide_eq_true_eq]
    split
    · rfl
    · cases density.evalScalar (r.o + (t - Real.log (1 - u) * x) • r.d) <;> rfl
  | cons_cons u v us ih _ =>
    intro t
    unfold ieeeDelta deltaTracking
    simp only [step_fin, ege_fin, ieeeDensity, decide_eq_true_eq]
    split
    · rfl
    · cases density.evalScalar (r.o + (t - Real.log (1 - u) * x) • r.d) with
      | none => rfl
      | some d =>
        simp only [Option.map_some, emul, elt, decide_eq_true_eq, gt_iff_lt]
        split
        · simp only [ieeeScatter]
          cases albedo.evalColor (r.o + (t - Real.log (1 - u) * x) • r.d) <;> rfl
        · exact ih _

theorem ratio_fin (density : Vol) (r : RayK ℝ) (junk : Option ℝ) (x c : ℝ) (us : List ℝ) : ∀ t tr, ieeeRatio density r junk (.fin x) c (.fin t) (.fin tr) us =
    match ratioTracking density r x c t tr us with
    | .more => .more
    | .undef => .undef
    | .done y => .done (.fin y) := by
  induction us with
  | nil => intro t tr; rfl
  | cons u us ih =>
    intro t tr
    unfold ieeeRatio ratioTracking
    simp only [step_fin, ege_fin, ieeeDensity, decide_eq_true_eq]
    split
    · rfl
    · cases density.evalScalar (r.o + (t - Real.log (1 - u) * x) • r.d) with
      | none => rfl
      | some d => exact ih _ _

/-- C84. Unless the maximum is zero, infinite values and values that are not numbers do not occur: the loops do what those of the other theorems do. -/
theorem C84_ieee (density albedo : Vol) (r : RayK ℝ) (junk : Option ℝ) (odd : DistRes) (tmin tmax : ℝ) (us : List ℝ) (hpos : density.maxScalar ≠ some 0) :
    ieeeDistance density albedo r junk odd tmin tmax us = heterogeneousDistance density albedo r tmin tmax us ∧ ieeeTransmittance density r junk tmin tmax us = heterogeneousTransmittance density r tmin tmax us := by
  have hinv : ieeeInv density = (density.maxScalar.bind fun m => divF 1 m).map .fin := by
    unfold ieeeInv
    cases hm : density.maxScalar with
    | none => rfl
    | some m =>
      have : m ≠ 0 := fun e => hpos (by rw [hm, e])
      simp [recip, divF, this]
  unfold ieeeDistance heterogeneousDistance ieeeTransmittance heterogeneousTransmittance
  rw [hinv]
  generalize isectRange density.bound r (.fin tmin) (.fin tmax) = o
  rcases o with _ | ⟨a, c⟩
  · exact ⟨rfl, rfl⟩
  · cases a with
    | fin a =>
      cases c with
      | fin c =>
        cases density.maxScalar.bind fun m => divF 1 m with
        | none => exact ⟨rfl, rfl⟩
        | some x =>
          refine ⟨delta_fin density albedo r junk odd x c us a, ?_⟩
          simp only [Option.map_some, ratio_fin]
          cases ratioTracking density r x c a 1 us <;> rfl
      | _ => exact ⟨rfl, rfl⟩
    | _ => exact ⟨rfl, rfl⟩

/-! ### With the maximum zero -/

theorem log_neg_of {u : ℝ} (h0 : 0 < u) (h1 : u < 1) : Real.log (1 - u) < 0 := Real.log_neg (by linarith) (by linarith)

/-- The first round leaves the loop, unless the random number is zero. -/
theorem step_out (a : ℝ) {u : ℝ} (h0 : 0 < u) (h1 : u < 1) : ieeeStep .pinf (.fin a) u = .pinf := by
  have h := log_neg_of h0 h1
  simp [ieeeStep, emul, h.ne, h, esub]

theorem mean_first {f : List ℝ → ℝ≥0∞} {v : ℝ≥0∞} (h : ∀ u, 0 < u → u < 1 → ∀ us, f (u :: us) = v) (n : ℕ) : mean (n + 1) f = v := by
  have hae : ∀ᵐ u ∂uniform1, 0 < u ∧ u < 1 := by
    unfold uniform1
    rw [Measure.restrict_congr_set (Ioo_ae_eq_Ico (μ := volume) (a := (0 : ℝ)) (b := 1)).symm]
    exact (ae_restrict_mem measurableSet_Ioo).mono fun u hu => hu
  have : ∀ᵐ u ∂uniform1, mean n (fun us => f (u :: us)) = v := hae.mono fun u hu => by
    rw [show (fun us => f (u :: us)) = fun _ => v from funext fun us => h u hu.1 hu.2 us, mean_const]
  rw [mean, lintegral_congr_ae this, lintegral_const, uniform1_prob, mul_one]

theorem expects_first {α : Type} {loop : List ℝ → Track α} {F : α → ℝ≥0∞} {v : ℝ≥0∞} (h : ∀ u, 0 < u → u < 1 → ∀ us, gain F (loop (u :: us)) = v) : Expects loop F v := by
  refine tendsto_const_nhds.congr' ?_
  filter_upwards [Filter.eventually_ge_atTop 1] with n hn
  obtain ⟨k, rfl⟩ : ∃ k, n = k + 1 := ⟨n - 1, by omega⟩
  exact (mean_first h k).symm

/-- C84 for media without density. With IEEE arithmetic, where 1 / 0 is infinite: the loops end with probability one, the transmittance is estimated as 1, which it is, and sampled distances give an unbiased estimate of the volume rendering equation (the light from behind the medium).
    Whatever happens at points whose coordinates are not numbers (`junk`, `odd`). Missing: rays running inside a face plane of the bound (C58_negation_graze). -/
theorem C84_empty_partial (density albedo : Vol) (r : RayK ℝ) (tmin tmax : ℝ) (hg : NoGraze density.bound r) (hd : Majorized density) (hz : density.maxScalar = some 0) (σ α : ℝ → ℝ) (hσ : ∀ t, density.evalScalar (r.o + t • r.d) = some (σ t))
    (i : Fin 3) (L : V3 ℝ → ℝ≥0∞) (w : ℝ≥0∞) (junk : Option ℝ) (odd : DistRes) :
    (Expects (ieeeTransmittance density r junk tmin tmax) (fun T => ENNReal.ofReal (chan i T)) (ENNReal.ofReal (transmittance density.bound σ r.o r.d tmin tmax)) ∧
      Expects (ieeeTransmittance density r junk tmin tmax) (fun _ => 1) 1) ∧
    Expects (ieeeDistance density albedo r junk odd tmin tmax) (along i L w) (radiance density.bound σ α r.o r.d tmin tmax L w) ∧ Expects (ieeeDistance density albedo r junk odd tmin tmax) (fun _ => 1) 1 := by
  have h0 : σ = fun _ => 0 := by
    obtain ⟨_, M, hM, _, hv⟩ := hd
    rw [hz] at hM; cases hM
    funext t
    obtain ⟨d, h1, h2, h3⟩ := hv (r.o + t • r.d)
    rw [hσ t] at h1; cases h1
    exact le_antisymm h3 h2
  have htr : ∀ t, transmittance density.bound σ r.o r.d tmin t = 1 := fun t => by simp [transmittance, h0]
  have hrad : radiance density.bound σ α r.o r.d tmin tmax L w = w := by
    simp only [radiance, htr]
    simp [h0]
  have hinv : ieeeInv density = some .pinf := by simp [ieeeInv, hz, recip]
  have hchan : chan i (V3.all 1) = 1 := by fin_cases i <;> rfl
  have hT : ∀ u, 0 < u → u < 1 → ∀ us, ieeeTransmittance density r junk tmin tmax (u :: us) = .done (V3.all 1) := fun u hu0 hu1 us => by
    unfold ieeeTransmittance
    rcases chord_cases density.bound r tmin tmax hg with ⟨e, _⟩ | ⟨a, c, e, _, _⟩
    · rw [e]
    · rw [e]
      simp only [hinv]
      unfold ieeeRatio
      simp [step_out a hu0 hu1, ege, elt]
  have hD : ∀ u, 0 < u → u < 1 → ∀ us, ieeeDistance density albedo r junk odd tmin tmax (u :: us) = .done .none := fun u hu0 hu1 us => by
    unfold ieeeDistance
    rcases chord_cases density.bound r tmin tmax hg with ⟨e, _⟩ | ⟨a, c, e, _, _⟩
    · rw [e]
    · rw [e]
      simp only [hinv]
      unfold ieeeDelta
      simp [step_out a hu0 hu1, ege, elt]
  rw [hrad, htr]
  refine ⟨⟨expects_first fun u a b us => ?_, expects_first fun u a b us => ?_⟩, expects_first fun u a b us => ?_, expects_first fun u a b us => ?_⟩
  · rw [hT u a b us]; simp only [gain, hchan]
  · rw [hT u a b us]; rfl
  · rw [hD u a b us]; rfl
  · rw [hD u a b us]; rfl

/-- C84 for the media of the library, with IEEE arithmetic: the density any volume of the library, zero or not, the albedo a constant colour. Missing: rays running inside a face plane of the bound (C58_negation_graze). -/
theorem C84_ieee_media_partial (density albedo : Vol) (h : Library density) (C : V3 ℝ) (hC : ∀ p, albedo.evalColor p = some C) (r : RayK ℝ) (tmin tmax : ℝ) (hg : NoGraze density.bound r) (i : Fin 3) (junk : Option ℝ) (odd : DistRes) :
    ∃ σ : ℝ → ℝ, (∀ t, density.evalScalar (r.o + t • r.d) = some (σ t)) ∧
      Expects (ieeeTransmittance density r junk tmin tmax) (fun T => ENNReal.ofReal (chan i T)) (ENNReal.ofReal (transmittance density.bound σ r.o r.d tmin tmax)) ∧
      (∀ (L : V3 ℝ → ℝ≥0∞) (w : ℝ≥0∞), Measurable L →
        Expects (ieeeDistance density albedo r junk odd tmin tmax) (along i L w) (radiance density.bound σ (fun _ => chan i C) r.o r.d tmin tmax L w)) ∧
      Expects (ieeeTransmittance density r junk tmin tmax) (fun _ => 1) 1 ∧ Expects (ieeeDistance density albedo r junk odd tmin tmax) (fun _ => 1) 1 := by
  by_cases hz : density.maxScalar = some 0
  · obtain ⟨hd, f, hf, hv⟩ := C84_library density h
    have e := fun L w => C84_empty_partial density albedo r tmin tmax hg hd hz _ (fun _ => chan i C) (fun t => hv (r.o + t • r.d)) i L w junk odd
    exact ⟨_, fun t => hv _, (e (fun _ => 0) 0).1.1, fun L w _ => (e L w).2.1, (e (fun _ => 0) 0).1.2, (e (fun _ => 0) 0).2.2⟩
  · rw [show ieeeTransmittance density r junk tmin tmax = heterogeneousTransmittance density r tmin tmax from funext fun us => (C84_ieee density albedo r junk odd tmin tmax us hz).2,
      show ieeeDistance density albedo r junk odd tmin tmax = heterogeneousDistance density albedo r tmin tmax from funext fun us => (C84_ieee density albedo r junk odd tmin tmax us hz).1]
    exact C84_media_partial density albedo h hz C hC r tmin tmax hg i

/-- C84. In a medium without density that a ray meets, the loops do not end if the first random number is zero: 0 · ∞ is not a number, and no comparison with it holds. -/
theorem C84_remark_empty_zero (density albedo : Vol) (r : RayK ℝ) (tmin tmax a c : ℝ) (hz : density.maxScalar = some 0) (he : isectRange density.bound r (.fin tmin) (.fin tmax) = some (.fin a, .fin c)) (odd : DistRes) (junk : Option ℝ) (hj : junk = some 0 ∨ junk = none) (us : List ℝ) :
    ieeeDistance density albedo r junk odd tmin tmax (0 :: us) = .more ∧ ieeeTransmittance density r junk tmin tmax (0 :: us) = .more := by
  have hinv : ieeeInv density = some .pinf := by simp [ieeeInv, hz, recip]
  have hs : ieeeStep .pinf (.fin a) 0 = .nan := by simp [ieeeStep, emul, esub]
  have hn : ∀ u, ieeeStep .pinf .nan u = .nan := fun u => by simp [ieeeStep, esub]
  have hjn : emul (junk.elim EFK.nan EFK.fin) (EFK.pinf : EFK ℝ) = .nan := by rcases hj with rfl | rfl <;> simp [emul]
  have hdelta : ∀ us, ieeeDelta density albedo r junk odd .pinf c .nan us = .more := fun us => by
    induction us using List.twoStepInduction with
    | nil => simp [ieeeDelta]
    | singleton u => unfold ieeeDelta; simp [hn, ege, ieeeDensity]
    | cons_cons u v us ih _ => unfold ieeeDelta; simp [hn, ege, ieeeDensity, hjn, elt, ih]
  have hratio : ∀ us tr, ieeeRatio density r junk .pinf c .nan tr us = .more := fun us => by
    induction us with
    | nil => intro tr; rfl
    | cons u us ih => intro tr; unfold ieeeRatio; simp [hn, ege, ieeeDensity, ih]
  constructor
  · unfold ieeeDistance
    rw [he]
    simp only [hinv]
    cases us with
    | nil => unfold ieeeDelta; simp [hs, ege, ieeeDensity]
    | cons v us => unfold ieeeDelta; simp [hs, ege, ieeeDensity, hjn, elt, hdelta]
  · unfold ieeeTransmittance
    rw [he]
    simp only [hinv]
    unfold ieeeRatio
    simp [hs, ege, ieeeDensity, hratio]

/-! ### A ball without fog -/

/-- volume::sphere of density 0 and radius 1 around the origin. -/
noncomputable def clear : Vol := ⟨sphereBound 0 1, true, some 0, fun p => (some (0 : ℝ)).map (fun m => m * (if Real.sqrt (V3.dot (0 - p) (0 - p)) < 1 then 1 else 0)), false, fun _ => none⟩

theorem clear_made : sphere none (some 0) 0 1 = some clear := by simp only [sphere, clear, reduceCtorEq, and_false, if_false]; rfl

/-- Seen through the centre of the ball, nothing is attenuated. -/
example (junk : Option ℝ) : Expects (ieeeTransmittance clear through junk 0 10) (fun T => ENNReal.ofReal T.x) 1 := by
  obtain ⟨hd, _⟩ := C84_library clear (.sphere none 0 0 1 clear le_rfl clear_made)
  have h := (C84_empty_partial clear clear through 0 10 (by simp [NoGraze, clear, sphereBound, through, V3.all, Eps]; norm_num) hd rfl (fun _ => 0) (fun _ => 0) (fun t => by simp [clear]) 0 (fun _ => 0) 0 junk .none).1.1
  have e : transmittance clear.bound (fun _ => 0) through.o through.d 0 10 = 1 := by simp [transmittance]
  rw [e, ENNReal.ofReal_one] at h
  exact h

/-- The first random number zero: with any further random numbers, the loop is not finished. The density outside the ball, and so at points whose coordinates are not numbers, is zero. -/
example (us : List ℝ) : ieeeTransmittance clear through (some 0) 0 10 (0 :: us) = .more := by
  rcases chord_cases clear.bound through 0 10 (by simp [NoGraze, clear, sphereBound, through, V3.all, Eps]; norm_num) with ⟨_, h⟩ | ⟨a, c, e, _, _⟩
  · rw [← inside_chord] at h
    have : (3 : ℝ) ∈ inside clear.bound through.o through.d 0 10 := by
      rw [show inside clear.bound through.o through.d 0 10 = inside ball.bound through.o through.d 0 10 from rfl, through_inside]
      constructor <;> norm_num [Eps]
    rw [h] at this; cases this
  · exact (C84_remark_empty_zero clear clear through 0 10 a c rfl e .none (some 0) (.inl rfl) us).2

/-- The ball with fog and the one without, with the same albedo. -/
example (v : Vol) (hv : v = ball ∨ v = clear) (r : RayK ℝ) (hg : NoGraze v.bound r) (i : Fin 3) (junk : Option ℝ) (odd : DistRes) (alb : Vol) (hC : ∀ p, alb.evalColor p = some (V3.all (1 / 2))) :=
  C84_ieee_media_partial v alb (by rcases hv with rfl | rfl; exacts [.sphere none 2 0 1 ball (by norm_num) ball_made, .sphere none 0 0 1 clear le_rfl clear_made]) _ hC r 0 10 hg i junk odd

end LM.Tracking
