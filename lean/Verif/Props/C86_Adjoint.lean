import Mathlib.MeasureTheory.Measure.Prod
import Mathlib.MeasureTheory.Function.AEEqOfLIntegral
/-
  C86: light carried forwards and importance carried backwards: the two iterations of the transport operator measure the same.
-/
namespace LM.Adjoint
open MeasureTheory
open scoped ENNReal

variable {X D : Type} [MeasurableSpace X] [MeasurableSpace D] [Neg D]

/-- What leaves the point that x sees in direction d, towards x. -/
def back (hit : X → D → Option X) (F : X → D → ℝ≥0∞) (x : X) (d : D) : ℝ≥0∞ := match hit x d with
  | none => 0
  | some y => F y (-d)

/-- What is scattered into direction w, of what arrives. -/
noncomputable def scat (σ : Measure D) (B : X → D → D → ℝ≥0∞) (G : X → D → ℝ≥0∞) (x : X) (w : D) : ℝ≥0∞ := ∫⁻ d, B x w d * G x d ∂σ

/-- The light that arrives after at most k - 1 scatterings. -/
noncomputable def light (hit : X → D → Option X) (σ : Measure D) (B : X → D → D → ℝ≥0∞) (E : X → D → ℝ≥0∞) : ℕ → X → D → ℝ≥0∞
  | 0, _, _ => 0
  | k + 1, x, d => back hit (fun y w => E y w + scat σ B (light hit σ B E k) y w) x d

/-- What a sensor records of the light that arrives, after at most k - 1 more scatterings. -/
noncomputable def relay (hit : X → D → Option X) (σ : Measure D) (Bs : X → D → D → ℝ≥0∞) (P : X → D → ℝ≥0∞) : ℕ → X → D → ℝ≥0∞
  | 0, _, _ => 0
  | k + 1, x, d => P x d + scat σ Bs (back hit (relay hit σ Bs P k)) x d

/-- The pairing: light of radiance G arriving on surfaces, weighted with F. -/
noncomputable def pair (A : Measure X) (σ : Measure D) (c : X → D → ℝ≥0∞) (F G : X → D → ℝ≥0∞) : ℝ≥0∞ := ∫⁻ x, ∫⁻ d, c x d * (F x d * G x d) ∂σ ∂A

/-- Measurable functions of points and directions. -/
def Meas (F : X → D → ℝ≥0∞) : Prop := Measurable fun q : X × D => F q.1 q.2

/-- Reversible transport: seen in both directions, with the same cosines, and reciprocal scattering. -/
structure Reversible (A : Measure X) (σ : Measure D) (c : X → D → ℝ≥0∞) (hit : X → D → Option X) (B Bs : X → D → D → ℝ≥0∞) : Prop where
  cos : Meas c
  back : ∀ F, Meas F → Meas (back hit F)
  scatter : Measurable fun q : X × D × D => B q.1 q.2.1 q.2.2
  scatter' : Measurable fun q : X × D × D => Bs q.1 q.2.1 q.2.2
  reverse : ∀ F G, Meas F → Meas G → pair A σ c F (Adjoint.back hit G) = pair A σ c (Adjoint.back hit F) G
  reciprocal : ∀ᵐ x ∂A, ∀ᵐ d ∂σ, ∀ᵐ d' ∂σ, c x d * B x d d' = c x d' * Bs x d' d

variable {A : Measure X} {σ : Measure D} [SFinite σ] {c : X → D → ℝ≥0∞} {hit : X → D → Option X} {B Bs : X → D → D → ℝ≥0∞}

omit [Neg D] in
theorem Meas.scat {B : X → D → D → ℝ≥0∞} (hB : Measurable fun q : X × D × D => B q.1 q.2.1 q.2.2) {G : X → D → ℝ≥0∞} (hG : Meas G) : Meas (scat σ B G) := by
  unfold Meas Adjoint.scat
  have h : Measurable fun q : (X × D) × D => B q.1.1 q.1.2 q.2 * G q.1.1 q.2 :=
    (hB.comp ((measurable_fst.comp measurable_fst).prodMk ((measurable_snd.comp measurable_fst).prodMk measurable_snd))).mul (hG.comp ((measurable_fst.comp measurable_fst).prodMk measurable_snd))
  exact h.lintegral_prod_right'

omit [Neg D] [SFinite σ] in
theorem pair_congr {F G F' G' : X → D → ℝ≥0∞} (h : ∀ᵐ x ∂A, ∀ᵐ d ∂σ, F x d * G x d = F' x d * G' x d) : pair A σ c F G = pair A σ c F' G' := by
  unfold pair
  refine lintegral_congr_ae (h.mono fun x hx => lintegral_congr_ae (hx.mono fun d hd => ?_))
  beta_reduce
  rw [hd]

theorem pair_add (hc : Meas c) {F G G' : X → D → ℝ≥0∞} (hF : Meas F) (hG : Meas G) : pair A σ c F (fun x d => G x d + G' x d) = pair A σ c F G + pair A σ c F G' := by
  have h1 : Meas fun x d => c x d * (F x d * G x d) := hc.mul (hF.mul hG)
  unfold pair
  rw [← lintegral_add_left h1.lintegral_prod_right']
  refine lintegral_congr fun x => ?_
  have h2 : Measurable fun d => c x d * (F x d * G x d) := h1.comp measurable_prodMk_left
  beta_reduce
  rw [← lintegral_add_left h2]
  refine lintegral_congr fun d => ?_
  ring

omit [SFinite σ] [Neg D] in
theorem pair_comm (F G : X → D → ℝ≥0∞) : pair A σ c F G = pair A σ c G F := by
  unfold pair
  simp_rw [mul_comm (F _ _)]

/-- Reciprocal scattering is adjoint. -/
theorem scat_adjoint (hR : Reversible A σ c hit B Bs) {F G : X → D → ℝ≥0∞} (hF : Meas F) (hG : Meas G) : pair A σ c F (scat σ B G) = pair A σ c (scat σ Bs F) G := by
  unfold pair scat
  refine lintegral_congr_ae (hR.reciprocal.mono fun x hx => ?_)
  beta_reduce
  have hFx : Measurable (F x) := hF.comp measurable_prodMk_left
  have hGx : Measurable (G x) := hG.comp measurable_prodMk_left
  have hcx : Measurable (c x) := hR.cos.comp measurable_prodMk_left
  have hBx : Measurable fun q : D × D => B x q.1 q.2 := hR.scatter.comp measurable_prodMk_left
  have hBsx : Measurable fun q : D × D => Bs x q.1 q.2 := hR.scatter'.comp measurable_prodMk_left
  calc ∫⁻ d, c x d * (F x d * ∫⁻ d', B x d d' * G x d' ∂σ) ∂σ
      = ∫⁻ d, ∫⁻ d', c x d * (F x d * (B x d d' * G x d')) ∂σ ∂σ := by
        refine lintegral_congr fun d => ?_
        have h : Measurable fun d' => B x d d' * G x d' := (hBx.comp measurable_prodMk_left).mul hGx
        rw [lintegral_const_mul _ (h.const_mul _), lintegral_const_mul _ h]
    _ = ∫⁻ d, ∫⁻ d', c x d' * (Bs x d' d * F x d * G x d') ∂σ ∂σ := by
        refine lintegral_congr_ae (hx.mono fun d hd => lintegral_congr_ae (hd.mono fun d' h => ?_))
        beta_reduce
        calc c x d * (F x d * (B x d d' * G x d')) = (c x d * B x d d') * (F x d * G x d') := by ring
          _ = _ := by rw [h]; ring
    _ = ∫⁻ d', ∫⁻ d, c x d' * (Bs x d' d * F x d * G x d') ∂σ ∂σ := by
        refine lintegral_lintegral_swap (Measurable.aemeasurable ?_)
        exact (hcx.comp measurable_snd).mul (((hBsx.comp measurable_swap).mul (hFx.comp measurable_fst)).mul (hGx.comp measurable_snd))
    _ = _ := by
        refine lintegral_congr fun d' => ?_
        have h : Measurable fun d => Bs x d' d * F x d := (hBsx.comp measurable_prodMk_left).mul hFx
        rw [lintegral_const_mul _ (h.mul_const _), lintegral_mul_const _ h]

theorem Reversible.light (hR : Reversible A σ c hit B Bs) {E : X → D → ℝ≥0∞} (hE : Meas E) (k : ℕ) : Meas (light hit σ B E k) := by
  induction k with
  | zero => exact measurable_const
  | succ k ih => exact hR.back _ (hE.add (Meas.scat hR.scatter ih))

theorem Reversible.relay (hR : Reversible A σ c hit B Bs) {P : X → D → ℝ≥0∞} (hP : Meas P) (k : ℕ) : Meas (relay hit σ Bs P k) := by
  induction k with
  | zero => exact measurable_const
  | succ k ih => exact hP.add (Meas.scat hR.scatter' (hR.back _ ih))

omit [MeasurableSpace X] [MeasurableSpace D] in
theorem back_add (hit : X → D → Option X) (F G : X → D → ℝ≥0∞) : back hit (fun x d => F x d + G x d) = fun x d => back hit F x d + back hit G x d := by
  funext x d
  unfold back
  cases hit x d <;> simp

omit [Neg D] in
theorem scat_add (hB : Measurable fun q : X × D × D => Bs q.1 q.2.1 q.2.2) {F G : X → D → ℝ≥0∞} (hF : Meas F) : scat σ Bs (fun x d => F x d + G x d) = fun x d => scat σ Bs F x d + scat σ Bs G x d := by
  funext x d
  unfold scat
  have h : Measurable fun d' => Bs x d d' * F x d' := (hB.comp (measurable_prodMk_left.comp measurable_prodMk_left)).mul (hF.comp measurable_prodMk_left)
  rw [← lintegral_add_left h]
  simp_rw [mul_add]

/-- Relaying once more is relaying what is relayed. -/
theorem relay_shift (hR : Reversible A σ c hit B Bs) {P : X → D → ℝ≥0∞} (hP : Meas P) (k : ℕ) : relay hit σ Bs (scat σ Bs (back hit P)) k = scat σ Bs (back hit (relay hit σ Bs P k)) := by
  induction k with
  | zero =>
    funext x d
    have : back hit (relay hit σ Bs P 0) = fun _ _ => 0 := by
      funext x d
      unfold back
      cases hit x d <;> rfl
    rw [this]
    simp [relay, scat]
  | succ k ih =>
    funext x d
    have e : relay hit σ Bs P (k + 1) = fun x d => P x d + scat σ Bs (back hit (relay hit σ Bs P k)) x d := by funext x d; rfl
    rw [e, back_add, scat_add hR.scatter' (hR.back _ hP)]
    show _ + scat σ Bs (back hit (relay hit σ Bs _ k)) x d = _
    rw [ih]

/-- What a sensor P records of the light that lights E send out, forwards and backwards. -/
theorem adjoint (hR : Reversible A σ c hit B Bs) {E P : X → D → ℝ≥0∞} (hE : Meas E) (hP : Meas P) (k : ℕ) : pair A σ c P (light hit σ B E k) = pair A σ c E (back hit (relay hit σ Bs P k)) := by
  induction k generalizing P with
  | zero =>
    have h1 : ∀ x d, back hit (relay hit σ Bs P 0) x d = 0 := by
      intro x d
      unfold back
      cases hit x d <;> rfl
    simp [pair, light, h1]
  | succ k ih =>
    have hL := hR.light hE k
    have hS : Meas (scat σ B (light hit σ B E k)) := Meas.scat hR.scatter hL
    have e1 : light hit σ B E (k + 1) = fun x d => back hit E x d + back hit (scat σ B (light hit σ B E k)) x d := by
      funext x d
      show back hit (fun y w => E y w + scat σ B (light hit σ B E k) y w) x d = _
      rw [back_add]
    have e2 : relay hit σ Bs P (k + 1) = fun x d => P x d + relay hit σ Bs (scat σ Bs (back hit P)) k x d := by
      funext x d
      rw [relay_shift hR hP k]
      rfl
    rw [e1, e2, pair_add hR.cos hP (hR.back _ hE), back_add, pair_add hR.cos hE (hR.back _ hP)]
    have hP' := hR.back _ hP
    rw [hR.reverse P E hP hE, pair_comm, hR.reverse P _ hP hS, scat_adjoint hR hP' hL, ih (Meas.scat hR.scatter' hP')]

end LM.Adjoint
