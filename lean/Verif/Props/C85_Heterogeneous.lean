import Verif.Props.C85_Homogeneous
import Verif.Props.C85_Sequence
/-
  C85: heterogeneous media, run with sequences of random numbers.
-/
namespace LM.Transport
open MeasureTheory LM LM.Surface LM.Material LM.Light LM.MathF LM.Path LM.Render LM.Solid LM.Bound LM.Volume LM.Tracking
open scoped ENNReal

/-- The outcome of a call that uses the random numbers of a sequence. A call that does not return is undefined. -/
def settle : Track DistRes → DistRes
  | .done r => r
  | _ => .undef
def settleT : Track (V3 ℝ) → Option (V3 ℝ)
  | .done T => some T
  | _ => none

/-- medium::heterogeneous, along the ray from o in direction d; nz are the signs of zero components of the direction. -/
noncomputable def cloudDist (density albedo : Vol) (nz : V3 ℝ → Bool × Bool × Bool) (s : ℕ → ℝ) (o d : V3 ℝ) (tmin tmax : ℝ) : DistRes := settle (runSeq (heterogeneousDistance density albedo ⟨o, d, nz d⟩ tmin tmax) s)
noncomputable def cloudTr (density : Vol) (nz : V3 ℝ → Bool × Bool × Bool) (s : ℕ → ℝ) (o d : V3 ℝ) (tmin tmax : ℝ) : Option (V3 ℝ) := settleT (runSeq (heterogeneousTransmittance density ⟨o, d, nz d⟩ tmin tmax) s)

/-- The medium with density f and albedo A inside the bound of the density. -/
noncomputable def cloud (W : World) (nm : Int) (b : Box ℝ) (f : V3 ℝ → ℝ) (A : V3 ℝ → V3 ℝ) (i : Fin 3) : Fog := ⟨b, f, fun p => chan i (A p), mediumVertex W nm⟩

def shiftU (k : ℕ) (s : ℕ → ℝ) (n : ℕ) : ℝ := s (n + k)
theorem measurable_shiftU (k : ℕ) : Measurable (shiftU k) := measurable_pi_iff.mpr fun n => measurable_pi_apply (n + k)

theorem firstU_one (n : ℕ) (s : ℕ → ℝ) : firstU (n + 1) s = s 0 :: firstU n (shiftU 1 s) := by
  simp only [firstU, List.range_succ_eq_map, List.map_cons, List.map_map]
  rfl
theorem firstU_two (n : ℕ) (s : ℕ → ℝ) : firstU (n + 2) s = s 0 :: s 1 :: firstU n (shiftU 2 s) := by
  rw [firstU_one, firstU_one]; rfl

section
variable (density albedo : Vol) (r : RayK ℝ) (inv c : ℝ) (σ : ℝ → ℝ) (hm : Measurable σ) (hσ : ∀ t, density.evalScalar (r.o + t • r.d) = some (σ t))
include hm hσ

theorem delta_measurable (B : ℝ → V3 ℝ) (hB : ∀ t, albedo.evalColor (r.o + t • r.d) = some (B t)) (F : Option (V3 ℝ × V3 ℝ) → ℝ≥0∞) (hF : Measurable fun t => F (some (r.o + t • r.d, B t))) (n : ℕ) :
    (Measurable fun x : ℝ × (ℕ → ℝ) => gain F (deltaTracking density albedo r inv c x.1 (firstU n x.2))) ∧ Measurable fun x : ℝ × (ℕ → ℝ) => gain F (deltaTracking density albedo r inv c x.1 (firstU (n + 1) x.2)) := by
  have ht : Measurable fun x : ℝ × (ℕ → ℝ) => x.1 - Real.log (1 - x.2 0) * inv :=
    measurable_fst.sub ((Real.measurable_log.comp (measurable_const.sub ((measurable_pi_apply 0).comp measurable_snd))).mul_const inv)
  induction n with
  | zero =>
    constructor
    · have e : (fun x : ℝ × (ℕ → ℝ) => gain F (deltaTracking density albedo r inv c x.1 (firstU 0 x.2))) = fun _ => 0 := by
        funext x; rw [firstU_zero, deltaTracking]; rfl
      rw [e]; exact measurable_const
    · have e : (fun x : ℝ × (ℕ → ℝ) => gain F (deltaTracking density albedo r inv c x.1 (firstU (0 + 1) x.2))) = fun x => if c ≤ x.1 - Real.log (1 - x.2 0) * inv then F none else 0 := by
        funext x
        rw [firstU_one, firstU_zero, deltaTracking]
        simp only [hσ]
        split <;> rfl
      rw [e]
      exact Measurable.ite (measurableSet_le measurable_const ht) measurable_const measurable_const
  | succ n ih =>
    refine ⟨ih.2, ?_⟩
    have e : (fun x : ℝ × (ℕ → ℝ) => gain F (deltaTracking density albedo r inv c x.1 (firstU (n + 1 + 1) x.2))) = fun x => if c ≤ x.1 - Real.log (1 - x.2 0) * inv then F none else
        if x.2 1 < σ (x.1 - Real.log (1 - x.2 0) * inv) * inv then F (some (r.o + (x.1 - Real.log (1 - x.2 0) * inv) • r.d, B (x.1 - Real.log (1 - x.2 0) * inv)))
        else gain F (deltaTracking density albedo r inv c (x.1 - Real.log (1 - x.2 0) * inv) (firstU n (shiftU 2 x.2))) := by
      funext x
      rw [firstU_two, deltaTracking]
      simp only [hσ, hB]
      split
      · rfl
      · split <;> rfl
    rw [e]
    refine Measurable.ite (measurableSet_le measurable_const ht) measurable_const (Measurable.ite (measurableSet_lt ((measurable_pi_apply 1).comp measurable_snd) ((hm.comp ht).mul_const inv)) (hF.comp ht) ?_)
    exact ih.1.comp (ht.prodMk ((measurable_shiftU 2).comp measurable_snd))

theorem ratio_measurable (F : ℝ → ℝ≥0∞) (hF : Measurable F) (n : ℕ) : Measurable fun x : (ℝ × ℝ) × (ℕ → ℝ) => gain F (ratioTracking density r inv c x.1.1 x.1.2 (firstU n x.2)) := by
  have ht : Measurable fun x : (ℝ × ℝ) × (ℕ → ℝ) => x.1.1 - Real.log (1 - x.2 0) * inv :=
    measurable_fst.fst.sub ((Real.measurable_log.comp (measurable_const.sub ((measurable_pi_apply 0).comp measurable_snd))).mul_const inv)
  induction n with
  | zero =>
    have e : (fun x : (ℝ × ℝ) × (ℕ → ℝ) => gain F (ratioTracking density r inv c x.1.1 x.1.2 (firstU 0 x.2))) = fun _ => 0 := by
      funext x; rw [firstU_zero, ratioTracking]; rfl
    rw [e]; exact measurable_const
  | succ n ih =>
    have e : (fun x : (ℝ × ℝ) × (ℕ → ℝ) => gain F (ratioTracking density r inv c x.1.1 x.1.2 (firstU (n + 1) x.2))) = fun x => if c ≤ x.1.1 - Real.log (1 - x.2 0) * inv then F x.1.2 else
        gain F (ratioTracking density r inv c (x.1.1 - Real.log (1 - x.2 0) * inv) (x.1.2 * (1 - σ (x.1.1 - Real.log (1 - x.2 0) * inv) * inv)) (firstU n (shiftU 1 x.2))) := by
      funext x
      rw [firstU_one, ratioTracking]
      simp only [hσ]
      split <;> rfl
    rw [e]
    refine Measurable.ite (measurableSet_le measurable_const ht) (hF.comp measurable_fst.snd) ?_
    exact ih.comp ((ht.prodMk (measurable_fst.snd.mul (measurable_const.sub ((hm.comp ht).mul_const inv)))).prodMk ((measurable_shiftU 1).comp measurable_snd))

omit hm in
/-- The weights of ratio tracking are not negative. -/
theorem ratio_nonneg (h0 : ∀ t, σ t * inv ≤ 1) (us : List ℝ) : ∀ t tr, 0 ≤ tr → ∀ T, ratioTracking density r inv c t tr us = .done T → 0 ≤ T := by
  induction us with
  | nil => intro t tr _ T h; rw [ratioTracking] at h; cases h
  | cons u us ih =>
    intro t tr htr T h
    rw [ratioTracking] at h
    simp only [hσ] at h
    split at h
    · cases h; exact htr
    · exact ih _ _ (mul_nonneg htr (by linarith [h0 (t - Real.log (1 - u) * inv)])) T h

end

/-- The weight of delta tracking is the albedo at the point of interaction. -/
theorem delta_weight (density albedo : Vol) (r : RayK ℝ) (inv c : ℝ) (n : ℕ) : ∀ us : List ℝ, us.length ≤ n → ∀ t p C, deltaTracking density albedo r inv c t us = .done (some (p, C)) → albedo.evalColor p = some C := by
  induction n using Nat.strong_induction_on with
  | _ n ih =>
    intro us hl t p C h
    match us, hl with
    | [], _ => rw [deltaTracking] at h; cases h
    | u1 :: us, hl =>
      rw [deltaTracking] at h
      by_cases h1 : t - Real.log (1 - u1) * inv ≥ c
      · simp [h1] at h
      · simp only [h1, if_false] at h
        cases he : density.evalScalar (r.o + (t - Real.log (1 - u1) * inv) • r.d) with
        | none => rw [he] at h; cases h
        | some d =>
          rw [he] at h
          match us, hl with
          | [], _ => cases h
          | u2 :: us, hl =>
            dsimp only at h
            by_cases h2 : d * inv > u2
            · simp only [h2, if_true] at h
              cases hc : albedo.evalColor (r.o + (t - Real.log (1 - u1) * inv) • r.d) with
              | none => rw [hc] at h; cases h
              | some c =>
                rw [hc] at h
                cases h
                exact hc
            · simp only [h2, if_false] at h
              exact ih us.length (by simp at hl; omega) us le_rfl _ p C h

theorem dist_steady (density albedo : Vol) (r : RayK ℝ) (tmin tmax : ℝ) : Steady (heterogeneousDistance density albedo r tmin tmax) := by
  intro us u
  unfold heterogeneousDistance
  split
  · right; rfl
  · split
    · right; rfl
    · rename_i a c _ _ inv _
      rcases delta_steady density albedo r inv c us.length us le_rfl a u with h | h
      · left; rw [h]
      · right; rw [h]
  · right; rfl

theorem tr_steady (density : Vol) (r : RayK ℝ) (tmin tmax : ℝ) : Steady (heterogeneousTransmittance density r tmin tmax) := by
  intro us u
  unfold heterogeneousTransmittance
  split
  · right; rfl
  · split
    · right; rfl
    · rename_i a c _ _ inv _
      rcases ratio_steady density r inv c us a 1 u with h | h
      · left; rw [h]
      · right; rw [h]
  · right; rfl

theorem runSeq_done {α : Type} {loop : List ℝ → Track α} {s : ℕ → ℝ} {a : α} (h : runSeq loop s = .done a) : ∃ n, loop (firstU n s) = .done a := by
  classical
  unfold runSeq at h
  split at h
  · exact ⟨_, h⟩
  · cases h

/-- A heterogeneous medium meets the requirements: the density any volume that respects its announced maximum, which is not 0, the albedo any volume with colours. -/
theorem cloud_ok (W : World) (nm : Int) (density albedo : Vol) (hd : Majorized density) (hpos : density.maxScalar ≠ some 0) (f : V3 ℝ → ℝ) (hf : Measurable f) (hv : ∀ p, density.evalScalar p = some (f p))
    (A : V3 ℝ → V3 ℝ) (hA : Measurable A) (hA0 : ∀ p, NonNeg (A p)) (ha : ∀ p, albedo.evalColor p = some (A p)) (nz : V3 ℝ → Bool × Bool × Bool) (i : Fin 3) :
    MediumOk uniforms i (cloud W nm density.bound f A i) (cloudDist density albedo nz) (cloudTr density nz) := by
  have hchan : Measurable fun p : V3 ℝ => chan i (A p) := (measurable_chan i).comp hA
  have hmf := fun o d : V3 ℝ => hf.comp (measurable_ray o d)
  have hD := fun (o d : V3 ℝ) (tmax : ℝ) (hc : Clear density.bound o d) (L : V3 ℝ → ℝ≥0∞) (hL : Measurable L) (w : ℝ≥0∞) =>
    C84_delta_partial density albedo ⟨o, d, nz d⟩ 0 tmax hc hd hpos (fun t => f (o + t • d)) (fun t => chan i (A (o + t • d))) (hmf o d) (fun t => hv _) i (hchan.comp (measurable_ray o d)) (fun t _ => ⟨_, ha _, rfl⟩) L hL w
  have hT := fun (o d : V3 ℝ) (tmax : ℝ) (hc : Clear density.bound o d) => C84_ratio_partial density ⟨o, d, nz d⟩ 0 tmax hc hd hpos (fun t => f (o + t • d)) (hmf o d) (fun t => hv _) i
  have hDm : ∀ (o d : V3 ℝ) (tmax : ℝ) (F : DistRes → ℝ≥0∞), (Measurable fun t : ℝ => F (.ok (o + t • d) (A (o + t • d)) true)) → ∀ n, Measurable fun s => gain F (heterogeneousDistance density albedo ⟨o, d, nz d⟩ 0 tmax (firstU n s)) := by
    intro o d tmax F hF n
    unfold heterogeneousDistance
    split
    · exact measurable_const
    · split
      · exact measurable_const
      · rename_i a c _ _ inv _
        have h1 := (delta_measurable density albedo ⟨o, d, nz d⟩ inv c (fun t => f (o + t • d)) (hmf o d) (fun t => hv _) (fun t => A (o + t • d)) (fun t => ha _)
          (fun x => match x with | none => F .none | some (p, C) => F (.ok p C true)) hF n).1.comp ((measurable_const (a := a)).prodMk measurable_id)
        refine (congrArg Measurable (funext fun s => ?_)).mp h1
        simp only [Function.comp_apply, id_eq]
        rcases deltaTracking density albedo ⟨o, d, nz d⟩ inv c a (firstU n s) with _ | _ | (_ | ⟨p, C⟩) <;> rfl
    · exact measurable_const
  have hTm : ∀ (o d : V3 ℝ) (tmax : ℝ) (F : V3 ℝ → ℝ≥0∞), (Measurable fun t : ℝ => F (V3.all t)) → ∀ n, Measurable fun s => gain F (heterogeneousTransmittance density ⟨o, d, nz d⟩ 0 tmax (firstU n s)) := by
    intro o d tmax F hF n
    unfold heterogeneousTransmittance
    split
    · exact measurable_const
    · split
      · exact measurable_const
      · rename_i a c _ _ inv _
        have h1 := (ratio_measurable density ⟨o, d, nz d⟩ inv c (fun t => f (o + t • d)) (hmf o d) (fun t => hv _) (fun x => F (V3.all x)) hF n).comp ((measurable_const (a := (a, (1 : ℝ)))).prodMk measurable_id)
        refine (congrArg Measurable (funext fun s => ?_)).mp h1
        simp only [Function.comp_apply, id_eq]
        rcases ratioTracking density ⟨o, d, nz d⟩ inv c a 1 (firstU n s) with _ | _ | T <;> rfl
    · exact measurable_const
  have hDe := fun o d tmax hc => ends_ae (dist_steady density albedo ⟨o, d, nz d⟩ 0 tmax) (hD o d tmax hc (fun _ => 0) measurable_const 0).2 (hDm o d tmax (fun _ => 1) measurable_const)
  have hTe := fun o d tmax hc => ends_ae (tr_steady density ⟨o, d, nz d⟩ 0 tmax) (hT o d tmax hc).2 (hTm o d tmax (fun _ => 1) measurable_const)
  refine ⟨fun o d tmax hc L hL w => ?_, fun o d tmax hc => ?_, fun o d tmax hc => ?_, fun o d tmax hc => ?_⟩
  · have h1 := (hD o d tmax hc L hL w).1.lintegral (dist_steady density albedo ⟨o, d, nz d⟩ 0 tmax) (hDm o d tmax (along i L w) ((hchan.comp (measurable_ray o d)).ennreal_ofReal.mul (hL.comp (measurable_ray o d))))
    rw [show (cloud W nm density.bound f A i).bound = density.bound from rfl]
    refine Eq.trans (lintegral_congr_ae ((hDe o d tmax hc).mono fun s ⟨a, h⟩ => ?_)) h1
    beta_reduce
    unfold cloudDist
    rw [h]; rfl
  · refine (hDe o d tmax hc).mono fun s ⟨x, h⟩ => ?_
    obtain ⟨n, hn⟩ := runSeq_done h
    unfold cloudDist
    rw [h]
    show x ≠ .undef ∧ ∀ p C m, x = .ok p C m → NonNeg C
    unfold heterogeneousDistance at hn
    split at hn
    · cases hn; simp
    · split at hn
      · cases hn
      · split at hn
        · cases hn
        · cases hn
        · cases hn; simp
        · rename_i hdt
          cases hn
          refine ⟨by simp, fun p C m e => ?_⟩
          cases e
          have := delta_weight _ _ _ _ _ _ _ le_rfl _ _ _ hdt
          rw [ha] at this
          cases this
          exact hA0 _
    · cases hn
  · refine (hTe o d tmax hc).mono fun s ⟨T, h⟩ => ?_
    obtain ⟨n, hn⟩ := runSeq_done h
    unfold cloudTr
    rw [h]
    refine ⟨T, rfl, ?_⟩
    unfold heterogeneousTransmittance at hn
    obtain ⟨_, M, hM, M0, hMb⟩ := id hd
    have Mp : 0 < M := lt_of_le_of_ne M0 (fun e => hpos (by rw [hM, ← e]))
    split at hn
    · cases hn; exact ⟨zero_le_one, zero_le_one, zero_le_one⟩
    · split at hn
      · cases hn
      · rename_i inv hinv
        split at hn
        · cases hn
        · cases hn
        · rename_i T hrt
          cases hn
          have hi : inv = 1 / M := by rw [hM] at hinv; simp [divF, Mp.ne'] at hinv; rw [← hinv, one_div]
          have hs := seen (r := ⟨o, d, nz d⟩) hd (hmf o d) (fun t => hv _) hM
          have h0 := ratio_nonneg density ⟨o, d, nz d⟩ inv _ (fun t => f (o + t • d)) (fun t => hv _) (fun t => by rw [hi, mul_one_div, div_le_one Mp]; exact hs.le t) _ _ 1 zero_le_one T hrt
          exact ⟨h0, h0, h0⟩
    · cases hn
  · have h1 := (hT o d tmax hc).1.lintegral (tr_steady density ⟨o, d, nz d⟩ 0 tmax) (hTm o d tmax _ ((measurable_chan i).comp (measurable_mk measurable_id measurable_id measurable_id)).ennreal_ofReal)
    refine Eq.trans (lintegral_congr_ae ((hTe o d tmax hc).mono fun s ⟨T, h⟩ => ?_)) h1
    beta_reduce
    unfold cloudTr
    rw [h]; rfl

end LM.Transport
