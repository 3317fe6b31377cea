import Verif.Spec.Lamps
import Verif.Props.C82_Path
/-
  C100: path tracing with sources without extent: one iteration, and the walk.
-/
namespace LM.Transport
open MeasureTheory LM LM.Surface LM.Material LM.Light LM.Path LM.Render LM.Solid
open scoped ENNReal

/-- A vertex on a light that cannot be found by scattering: a point, or a light with only one direction. -/
noncomputable def offSurface (W : World) (sp : SI) : Bool := sp.geom.degenerated || (isSpecularComponent W sp 0 == some true)

/-- One channel of a light sample, weighted with a function of the direction towards the light, one for lights without extent (true) and one for the others (false). -/
noncomputable def lightWorth2 (W : World) (Q : Query) (sp : SI) (i : Fin 3) (F : Bool → V3 ℝ → ℝ≥0∞) : SRes → ℝ≥0∞
  | .ok spL woL wL => if Q.visible sp spL then ENNReal.ofReal (chan i wL) * F (offSurface W spL) (-woL) else 0
  | .fail => 0
  | .undef => ⊤

/-- What is required of light sampling at a vertex, where A is what arrives from lights without extent. -/
structure Connects2 (W : World) (Q : Query) (S : Optics) (N : Connection) (A : Measure (V3 ℝ)) (i : Fin 3) (sp : SI) : Prop where
  light : ∀ F, (∀ b, Measurable (F b)) → averageLight (fun u => lightWorth2 W Q sp i F (sampleDirect W u sp .LE)) = ∫⁻ d, S.seen sp d * F false d ∂N.angle sp + ∫⁻ d, F true d ∂A
  sampled : Almost fun u => sampleDirect W u sp .LE ≠ .undef ∧ ∀ spL woL wL, sampleDirect W u sp .LE = .ok spL woL wL → Q.visible sp spL = true →
    V3.dot woL woL = 1 ∧ NonNeg wL ∧ (isSpecularComponent W spL 0).isSome ∧ (offSurface W spL = false → pdfDirect W sp spL woL true = some (N.pdfLight sp (-woL)))
  measurable_pdf : Measurable (N.pdfLight sp)
  nonneg_pdf : ∀ d, 0 ≤ N.pdfLight sp d

/-- What is required of a scene for light sampling; A is what arrives from lights without extent, glow what is scattered of it. -/
structure NeeSound2 (W : World) (Q : Query) (S : Optics) (N : Connection) (A : SI → Measure (V3 ℝ)) (glow : SI → V3 ℝ → ℕ → Measure (V3 ℝ)) (i : Fin 3) (good : SI → V3 ℝ → Prop) : Prop where
  specular : ∀ sp wi, good sp wi → ∀ c ∈ S.comps sp wi, ∃ b, isSpecularComponent W sp c = some b ∧ (b = true → glow sp wi c = 0) ∧
    (b = false → Connects2 W Q S N (A sp) i sp ∧ Scatters W Q S N i sp wi c ∧ glow sp wi c = (A sp).withDensity fun d => ENNReal.ofReal (chan i (N.bsdf sp wi c d)))
  measurable : ∀ k sp wi, good sp wi → Measurable (S.lit (fun sp wi c => glow sp wi c Set.univ) k sp)

/-- The share of light samples. -/
noncomputable def neeShare2 (N : Connection) (m : Mode) (sp : SI) (wi : V3 ℝ) (c : ℕ) (b : Bool) (d : V3 ℝ) : ℝ≥0∞ := if b then 1 else neeShare N m sp wi c d

/-- What light sampling adds at a non-specular vertex. -/
theorem nee_value2 (W : World) (Q : Query) (S : Optics) (N : Connection) (A) (i : Fin 3) (c : Cfg) (H : ℝ × ℝ → ℝ≥0∞) (nv : ℕ) (st : St) (hC : Connects2 W Q S N A i st.sp) (hs : Scatters W Q S N i st.sp st.wi st.comp)
    (hthr : NonNeg st.thr) (hras : nv = 1 → ∀ d, ∃ o, rasterAt W d = some o) (hb : byNee W c nv st = some true) (u : RaySampleU)
    (hu : sampleDirect W u st.sp .LE ≠ .undef ∧ ∀ spL woL wL, sampleDirect W u st.sp .LE = .ok spL woL wL → Q.visible st.sp spL = true →
      V3.dot woL woL = 1 ∧ NonNeg wL ∧ (isSpecularComponent W spL 0).isSome ∧ (offSurface W spL = false → pdfDirect W st.sp spL woL true = some (N.pdfLight st.sp (-woL)))) :
    measured i H (ptNee W Q c nv st ⟨u, ⟨0, 0, 0⟩, 0, 0⟩) =
      ENNReal.ofReal (chan i st.thr) * lightWorth2 W Q st.sp i (fun b d => onFilm W H nv st.rp d * (neeShare2 N c.mode st.sp st.wi st.comp b d * ENNReal.ofReal (chan i (N.bsdf st.sp st.wi st.comp d)))) (sampleDirect W u st.sp .LE) := by
  obtain ⟨hdef, hok⟩ := hu
  unfold ptNee
  rw [hb]
  simp only [Option.bind_eq_bind, Option.bind_some, if_true]
  cases hd : sampleDirect W u st.sp .LE with
  | undef => exact absurd hd hdef
  | fail => simp [lightWorth2, measured]
  | ok spL woL wL =>
    dsimp only [lightWorth2]
    cases hv : Q.visible st.sp spL with
    | false => simp [neeSplat, hv, measured]
    | true =>
      obtain ⟨h1, h2, h3, h5⟩ := hok spL woL wL hd hv
      have hu1 : V3.dot (-woL) (-woL) = 1 := by rw [← h1]; simp [V3.dot]
      obtain ⟨e1, e2⟩ := hs.eval _ hu1
      obtain ⟨p1, p2, p3⟩ := hs.pdf _ hu1
      have hrp : ∃ o, (nv = 1 ∧ rasterAt W (-woL) = some o ∨ nv ≠ 1 ∧ o = some st.rp) ∧ (o = none → onFilm W H nv st.rp (-woL) = 0) ∧ ∀ r, o = some r → onFilm W H nv st.rp (-woL) = H r := by
        by_cases hn : nv = 1
        · obtain ⟨o, ho⟩ := hras hn (-woL)
          exact ⟨o, .inl ⟨hn, ho⟩, fun h => by simp [onFilm, hn, ho, h], fun r h => by simp [onFilm, hn, ho, h]⟩
        · exact ⟨some st.rp, .inr ⟨hn, rfl⟩, by simp, fun r h => by cases h; simp [onFilm, hn]⟩
      obtain ⟨o, ho1, ho2, ho3⟩ := hrp
      rw [neeSplat_at W Q c nv st spL woL wL o hv ho1]
      simp only [if_true]
      cases o with
      | none => simp [measured, ho2 rfl]
      | some r =>
        rw [ho3 r rfl]
        dsimp only
        rw [e1, Option.bind_some]
        by_cases hz : N.bsdf st.sp st.wi st.comp (-woL) = 0
        · simp [hz, measured, chan_zero]
        · have hw : ∃ w, neeWeight W c st spL woL = some w ∧ 0 ≤ w ∧ ENNReal.ofReal w = neeShare2 N c.mode st.sp st.wi st.comp (offSurface W spL) (-woL) := by
            unfold neeWeight neeShare2 neeShare
            by_cases hm : c.mode = .nee
            · exact ⟨1, by rw [if_pos hm], zero_le_one, by rw [if_pos hm, ENNReal.ofReal_one]; split <;> rfl⟩
            · rw [if_neg hm, if_neg hm]
              obtain ⟨b, hb'⟩ := Option.isSome_iff_exists.mp h3
              cases ho : offSurface W spL with
              | true =>
                refine ⟨1, ?_, zero_le_one, by simp⟩
                have : (b || spL.geom.degenerated) = true := by
                  unfold offSurface at ho
                  rw [hb'] at ho
                  cases b <;> cases hg : spL.geom.degenerated <;> simp_all
                simp only [hb', Option.bind_eq_bind, Option.bind_some, this, if_true]
                rfl
              | false =>
                refine ⟨_, ?_, balance_nonneg (hC.nonneg_pdf (-woL)) p2, by simp⟩
                have : (b || spL.geom.degenerated) = false := by
                  unfold offSurface at ho
                  rw [hb'] at ho
                  cases b <;> cases hg : spL.geom.degenerated <;> simp_all
                simp only [hb', Option.bind_eq_bind, Option.bind_some, this, Bool.false_eq_true, if_false, h5 ho, p1]
                rfl
          obtain ⟨w, hw1, hw2, hw3⟩ := hw
          rw [if_neg hz, hw1, Option.bind_some]
          simp only [measured, List.map_cons, List.map_nil, List.sum_cons, List.sum_nil, add_zero]
          rw [chan_smul, chan_mul, chan_mul, ENNReal.ofReal_mul hw2, ENNReal.ofReal_mul (mul_nonneg (chan_nonneg hthr i) (chan_nonneg e2 i)), ENNReal.ofReal_mul (chan_nonneg hthr i), hw3]
          ring

/-- Averaged over the light samples: the share of the emission seen from the vertex, scattered, and what is scattered of the lights without extent. -/
theorem nee_average2 (W : World) (Q : Query) (S : Optics) (N : Connection) (A) (i : Fin 3) (good) (hS : Sound W Q S i good) (c : Cfg) (H : ℝ × ℝ → ℝ≥0∞) (nv : ℕ) (st : St) (hg : good st.sp st.wi)
    (hC : Connects2 W Q S N A i st.sp) (hs : Scatters W Q S N i st.sp st.wi st.comp)
    (hthr : NonNeg st.thr) (hfilm : Measurable (onFilm W H nv st.rp)) (hras : nv = 1 → ∀ d, ∃ o, rasterAt W d = some o) (hb : byNee W c nv st = some true) :
    averageLight (fun l => measured i H (ptNee W Q c nv st ⟨l, ⟨0, 0, 0⟩, 0, 0⟩)) =
      ENNReal.ofReal (chan i st.thr) * (∫⁻ d, onFilm W H nv st.rp d * (neeShare N c.mode st.sp st.wi st.comp d * S.seen st.sp d) ∂S.scatter st.sp st.wi st.comp +
        ∫⁻ d, onFilm W H nv st.rp d ∂A.withDensity fun d => ENNReal.ofReal (chan i (N.bsdf st.sp st.wi st.comp d))) := by
  have hsm := (measurable_shares N c.mode st.sp st.wi st.comp hC.measurable_pdf hs.measurable_pdf).1
  have hbm : Measurable fun d => ENNReal.ofReal (chan i (N.bsdf st.sp st.wi st.comp d)) := ((measurable_chan i).comp hs.measurable_bsdf).ennreal_ofReal
  have hF : ∀ b, Measurable fun d => onFilm W H nv st.rp d * (neeShare2 N c.mode st.sp st.wi st.comp b d * ENNReal.ofReal (chan i (N.bsdf st.sp st.wi st.comp d))) := by
    intro b
    unfold neeShare2
    cases b
    · simp only [Bool.false_eq_true, if_false]
      exact hfilm.mul (hsm.mul hbm)
    · simp only [if_true]
      exact hfilm.mul (measurable_const.mul hbm)
  have hG : Measurable fun d => onFilm W H nv st.rp d * (neeShare N c.mode st.sp st.wi st.comp d * S.seen st.sp d) := hfilm.mul (hsm.mul (hS.measurable_seen _ _ hg))
  rw [averageLight_congr (g := fun u => ENNReal.ofReal (chan i st.thr) * lightWorth2 W Q st.sp i (fun b d => onFilm W H nv st.rp d * (neeShare2 N c.mode st.sp st.wi st.comp b d * ENNReal.ofReal (chan i (N.bsdf st.sp st.wi st.comp d))))
      (sampleDirect W u st.sp .LE)) (Filter.Eventually.mono hC.sampled fun s hs1 => hs1.mono fun p hp => hp.mono fun q hq => nee_value2 W Q S N A i c H nv st hC hs hthr hras hb _ hq), averageLight_mul _ ENNReal.ofReal_ne_top,
    hC.light _ hF, hs.scatter, lintegral_withDensity_eq_lintegral_mul _ hbm hG, lintegral_withDensity_eq_lintegral_mul _ hbm hfilm]
  congr 2
  · refine lintegral_congr fun d => ?_
    simp only [Pi.mul_apply, neeShare2, Bool.false_eq_true, if_false]
    ring
  · refine lintegral_congr fun d => ?_
    simp only [Pi.mul_apply, neeShare2, if_true]
    ring

/-- What arrives and is scattered at a vertex, when k more iterations follow. -/
noncomputable def litFrom (S : Optics) (glow : SI → V3 ℝ → ℕ → Measure (V3 ℝ)) (k : ℕ) (sp : SI) (wi : V3 ℝ) (c : ℕ) : ℝ≥0∞ :=
  ∫⁻ d, S.lit (fun sp wi c => glow sp wi c Set.univ) k sp d ∂S.scatter sp wi c + if k = 0 then 0 else glow sp wi c Set.univ

theorem lit_succ (S : Optics) (glow) (k : ℕ) (sp : SI) (d : V3 ℝ) : S.lit (fun sp wi c => glow sp wi c Set.univ) (k + 1) sp d = S.seen sp d + S.behindOf (litFrom S glow k) sp d := by
  rw [Optics.lit, Optics.seen, Optics.behindOf]
  cases S.isect sp.geom.p d <;> simp [litFrom]

/-- C100. With light sampling, in scenes with lights without extent: averaged over all random numbers, what a walk of k iterations from a vertex adds to the film is its throughput times the scattering of what arrives at
    the vertex from surfaces and from the lights without extent. -/
theorem C100_walk (W : World) (Q : Query) (S : Optics) (N : Connection) (A : SI → Measure (V3 ℝ)) (glow : SI → V3 ℝ → ℕ → Measure (V3 ℝ)) (i : Fin 3) (good) (hS : Sound W Q S i good) (c : Cfg) (hm : c.mode ≠ .naive)
    (hN : NeeSound2 W Q S N A glow i good) (H : ℝ × ℝ → ℝ≥0∞) (rs : ℕ → Rnd) (k nv : ℕ)
    (hnv : 1 ≤ nv) (st : St) (hg : good st.sp st.wi) (hc : st.comp ∈ S.comps st.sp st.wi) (hthr : NonNeg st.thr) (hfilm : Measurable (onFilm W H nv st.rp)) (hras : nv = 1 → ∀ d, ∃ o, rasterAt W d = some o)
    (hcam : nv = 1 → ∀ᵐ u ∂uniform3, ∀ wo C, sampleDirection W ⟨u.1, u.2.1, u.2.2⟩ st.sp st.wi st.comp .EL = .ok wo C → ∃ r, rasterAt W wo = some (some r)) :
    average k nv rs (fun rs' => measured i H (walk W (rouletteAt (2 / 10)) (ptBody W Q c) rs' k nv st)) =
      ENNReal.ofReal (chan i st.thr) * (∫⁻ d, onFilm W H nv st.rp d * S.lit (fun sp wi c => glow sp wi c Set.univ) k st.sp d ∂S.scatter st.sp st.wi st.comp +
        if k = 0 ∨ (c.pixel = true ∧ nv = 1) then 0 else ∫⁻ d, onFilm W H nv st.rp d ∂glow st.sp st.wi st.comp) := by
  induction k generalizing nv rs st with
  | zero => simp [average, walk, measured, Optics.lit]
  | succ k ih =>
    have ih' : ∀ rs st, good st.sp st.wi → st.comp ∈ S.comps st.sp st.wi → NonNeg st.thr →
        average k (nv + 1) rs (fun rs' => measured i H (walk W (rouletteAt (2 / 10)) (ptBody W Q c) rs' k (nv + 1) st)) = ENNReal.ofReal (chan i st.thr) * (H st.rp * litFrom S glow k st.sp st.wi st.comp) := by
      intro rs st hg hc hthr
      have h2 : ∀ d, onFilm W H (nv + 1) st.rp d = H st.rp := fun d => by rw [onFilm, if_neg (by omega)]
      rw [ih rs (nv + 1) (by omega) st hg hc hthr (by rw [funext h2]; exact measurable_const) (fun h => absurd h (by omega)) (fun h => absurd h (by omega))]
      simp_rw [h2]
      rw [lintegral_const_mul _ (hN.measurable k _ _ hg), lintegral_const, litFrom, mul_add]
      by_cases hk : k = 0
      · simp [hk]
      · rw [if_neg (by rintro (h | h); exact hk h; omega), if_neg hk]
        ring
    have hVm : Measurable (S.behindOf (litFrom S glow k) st.sp) := by
      have : S.behindOf (litFrom S glow k) st.sp = fun d => S.lit (fun sp wi c => glow sp wi c Set.univ) (k + 1) st.sp d - S.seen st.sp d := funext fun d => by
        rw [lit_succ, ENNReal.add_sub_cancel_left (hS.seen_ne_top st.sp d)]
      rw [this]
      exact (hN.measurable (k + 1) _ _ hg).sub (hS.measurable_seen _ _ hg)
    simp_rw [lit_succ]
    obtain ⟨b, hb0, hbt, hbf⟩ := hN.specular _ _ hg _ hc
    have hb : byNee W c nv st = some (if c.pixel then decide (nv > 1) && !b else !b) := by unfold byNee; rw [if_neg hm, hb0, Option.map_some]
    by_cases hby : byNee W c nv st = some true
    · have hpx : ¬ (k + 1 = 0 ∨ (c.pixel = true ∧ nv = 1)) := by
        rintro (h | ⟨h1, h2⟩)
        · omega
        · rw [hb, h1, h2] at hby
          simp at hby
      have hbF : b = false := by
        rw [hb] at hby
        cases b
        · rfl
        · simp at hby
      obtain ⟨hC, hs, hgl⟩ := hbf hbF
      rw [if_neg hpx]
      exact step_average_of W Q S i good hS c H rs k nv (litFrom S glow k) _ st hg hc hthr ih' hVm hfilm hcam (neeShare N c.mode st.sp st.wi st.comp) (hitShare N c.mode st.sp st.wi st.comp)
        (measurable_shares N c.mode st.sp st.wi st.comp hC.measurable_pdf hs.measurable_pdf).2 (shares_ae hC.nonneg_pdf hs c.mode)
        (by rw [hgl]; exact nee_average2 W Q S N _ i good hS c H nv st hg hC hs hthr hfilm hras hby) (hit_value W Q S N i good hS c hm H nv st hg hc hC.nonneg_pdf hs hthr hby)
    · have hby' : byNee W c nv st = some false := by
        rw [hb] at hby ⊢
        generalize (if c.pixel then decide (nv > 1) && !b else !b) = x at hby ⊢
        cases x
        · rfl
        · exact absurd rfl hby
      have hX : (if k + 1 = 0 ∨ (c.pixel = true ∧ nv = 1) then 0 else ∫⁻ d, onFilm W H nv st.rp d ∂glow st.sp st.wi st.comp) = 0 := by
        by_cases hp : c.pixel = true ∧ nv = 1
        · rw [if_pos (.inr hp)]
        · have hbT : b = true := by
            rw [hb] at hby'
            cases b
            · exfalso
              apply hp
              cases hpx : c.pixel <;> simp [hpx] at hby'
              exact ⟨rfl, by omega⟩
            · rfl
          rw [hbt hbT]
          simp
      rw [hX]
      refine step_average_of W Q S i good hS c H rs k nv (litFrom S glow k) 0 st hg hc hthr ih' hVm hfilm hcam (fun _ => 0) (fun _ => 1) measurable_const (Filter.Eventually.of_forall fun d => by simp) ?_
        (hit_full W Q S i good hS c H nv st hg hc hthr hby')
      have : ∀ l, ptNee W Q c nv st ⟨l, ⟨0, 0, 0⟩, 0, 0⟩ = some [] := fun l => by unfold ptNee; rw [hby']; rfl
      simp_rw [this]
      simp [measured, averageLight_const]

end LM.Transport
