import Verif.Spec.Estimate
import Verif.Props.C80_Camera
/-
  C81: from densities to unbiased estimates.
-/
namespace LM.Solid
open MeasureTheory LM LM.Surface LM.Material LM.Light Set
open scoped ENNReal

/-- The sampled value, and 0 if there is none. -/
noncomputable def pick {U α : Type} [Nonempty α] (sample : U → Option α) (u : U) : α := match sample u with
  | some a => a
  | none => Classical.arbitrary α

theorem pick_law {U α : Type} [MeasurableSpace U] [MeasurableSpace α] [MeasurableSpace.CountablyGenerated α] [Nonempty α] {μ : Measure U} {sample : U → Option α} {σ : Measure α} {p : α → Option ℝ}
    (h : HasDensityO μ sample σ p) : let E := {u | (sample u).isSome}
    NullMeasurableSet E μ ∧ AEMeasurable (pick sample) (μ.restrict E) ∧ (μ.restrict E).map (pick sample) = σ.withDensity fun a => dens (p a) := by
  intro E
  have key : ∀ A : Set α, {u | ∃ a, sample u = some a ∧ a ∈ A} = pick sample ⁻¹' A ∩ E := by
    intro A
    ext u
    simp only [mem_ofPred_eq, mem_inter_iff, mem_preimage, E, pick]
    cases sample u with
    | none => simp
    | some a => simp
  have hE : NullMeasurableSet E μ := by
    have := ((h.2 univ MeasurableSet.univ).1)
    rwa [key univ, preimage_univ, univ_inter] at this
  have hae : AEMeasurable (pick sample) (μ.restrict E) := by
    refine NullMeasurable.aemeasurable fun A hA => ?_
    rw [nullMeasurableSet_restrict hE, ← key]
    exact (h.2 A hA).1
  refine ⟨hE, hae, Measure.ext fun A hA => ?_⟩
  rw [Measure.map_apply_of_aemeasurable hae hA, Measure.restrict_apply₀' hE, ← key, (h.2 A hA).2, withDensity_apply _ hA]

/-- The expected value of any function of the outcome. -/
theorem lintegral_sample {U α : Type} [MeasurableSpace U] [MeasurableSpace α] [MeasurableSpace.CountablyGenerated α] [Nonempty α] {μ : Measure U} {sample : U → Option α} {σ : Measure α} {p : α → Option ℝ}
    (h : HasDensityO μ sample σ p) (F : α → ℝ≥0∞) (hF : AEMeasurable F σ) (G : U → ℝ≥0∞) (hG : ∀ᵐ u ∂μ, G u = match sample u with | some a => F a | none => 0) :
    ∫⁻ u, G u ∂μ = ∫⁻ a, dens (p a) * F a ∂σ := by
  obtain ⟨hE, hae, hmap⟩ := pick_law h
  set E := {u | (sample u).isSome} with hEdef
  have hF' : AEMeasurable F (σ.withDensity fun a => dens (p a)) := hF.mono_ac (withDensity_absolutelyContinuous _ _)
  rw [show (∫⁻ a, dens (p a) * F a ∂σ) = ∫⁻ a, F a ∂(σ.withDensity fun a => dens (p a)) from (lintegral_withDensity_eq_lintegral_mul₀ h.1 hF).symm, ← hmap,
    lintegral_map' (by rw [hmap]; exact hF') hae, ← lintegral_indicator₀ hE]
  refine lintegral_congr_ae (hG.mono fun u hu => ?_)
  rw [hu]
  by_cases hm : u ∈ E
  · rw [indicator_of_mem hm]
    have : (sample u).isSome = true := hm
    obtain ⟨a, e⟩ := Option.isSome_iff_exists.mp this
    simp [pick, e]
  · rw [indicator_of_notMem hm]
    have : ¬ (sample u).isSome = true := hm
    cases e : sample u with
    | none => rfl
    | some a => rw [e] at this; simp at this

/-- If the outcome has the reported density, and the weight is the value divided by the density, the estimate is unbiased wherever the density is positive where the value is not 0. -/
theorem unbiasedO_of {U α : Type} [MeasurableSpace U] [MeasurableSpace α] [MeasurableSpace.CountablyGenerated α] [Nonempty α] {μ : Measure U} {sample : U → Option (α × V3 ℝ)} {σ : Measure α} {p : α → Option ℝ}
    {f : α → Option (V3 ℝ)} (h : HasDensityO μ (fun u => (sample u).map (·.1)) σ p) (hf : ∀ i, AEMeasurable (fun a => value i (f a)) σ)
    (hw : ∀ᵐ u ∂μ, ∀ a C, sample u = some (a, C) → ∃ P F, p a = some P ∧ f a = some F ∧ 0 < P ∧ P • C = F)
    (hs : ∀ᵐ a ∂σ, ∃ P F, p a = some P ∧ f a = some F ∧ 0 ≤ P ∧ (P = 0 → F = 0)) : UnbiasedO μ sample σ f := by
  intro i L hL
  rw [lintegral_sample h (fun a => value i (f a) / dens (p a) * L a) (((hf i).div h.1).mul hL.aemeasurable) (fun u => worthO i L (sample u))]
  · refine lintegral_congr_ae (hs.mono ?_)
    rintro a ⟨P, F, hP, hF, h0, h1⟩
    simp only [hP, hF, dens, value]
    rw [← mul_assoc]
    congr 1
    rcases h0.lt_or_eq with h0 | h0
    · exact ENNReal.mul_div_cancel (ENNReal.ofReal_pos.mpr h0).ne' ENNReal.ofReal_ne_top
    · rw [← h0, h1 h0.symm]
      fin_cases i <;> simp [chan]
  · refine hw.mono fun u hu => ?_
    cases e : sample u with
    | none => rfl
    | some q =>
      obtain ⟨a, C⟩ := q
      obtain ⟨P, F, hP, hF, h0, h1⟩ := hu a C e
      simp only [worthO, Option.map_some, hP, hF, dens, value]
      congr 1
      rw [← h1, ← ENNReal.ofReal_div_of_pos h0]
      congr 1
      fin_cases i <;> simp [chan] <;> field_simp

/-- A direction with its weight. -/
def dirW : DirRes → Option (V3 ℝ × V3 ℝ)
  | .ok wo C => some (wo, C)
  | _ => none

instance : MeasurableSpace.CountablyGenerated (V3 ℝ) := MeasurableSpace.CountablyGenerated.comap toProd

theorem hasDensityO_iff {U : Type} [MeasurableSpace U] {μ : Measure U} {sample : U → DirRes} {σ : Measure (V3 ℝ)} {p : V3 ℝ → Option ℝ} (h : HasDensity μ sample σ p) :
    HasDensityO μ (fun u => (dirW (sample u)).map (·.1)) σ p := by
  refine ⟨h.1, fun A hA => ?_⟩
  have : {u | ∃ a, (dirW (sample u)).map (·.1) = some a ∧ a ∈ A} = event sample A := by
    ext u
    simp only [event, mem_ofPred_eq]
    cases sample u with
    | ok wo C => simp [dirW]
    | fail => simp [dirW]
    | undef => simp [dirW]
  rw [this]
  exact h.2 A hA

theorem unbiased_of {U : Type} [MeasurableSpace U] {μ : Measure U} {sample : U → DirRes} {σ : Measure (V3 ℝ)} {p : V3 ℝ → Option ℝ} {f : V3 ℝ → Option (V3 ℝ)} (h : HasDensity μ sample σ p)
    (hf : ∀ i, AEMeasurable (fun d => value i (f d)) σ)
    (hw : ∀ᵐ u ∂μ, sample u ≠ .undef ∧ ∀ wo C, sample u = .ok wo C → ∃ P F, p wo = some P ∧ f wo = some F ∧ 0 < P ∧ P • C = F)
    (hs : ∀ᵐ d ∂σ, ∃ P F, p d = some P ∧ f d = some F ∧ 0 ≤ P ∧ (P = 0 → F = 0)) : Unbiased μ sample σ f := by
  intro i L hL
  rw [← unbiasedO_of (sample := fun u => dirW (sample u)) (hasDensityO_iff h) hf (hw.mono fun u hu a C e => ?_) hs i L hL]
  · refine lintegral_congr_ae (hw.mono fun u hu => ?_)
    have h1 := hu.1
    cases e : sample u with
    | ok wo C => simp only [e, dirW, worth, worthO]
    | fail => simp only [e, dirW, worth, worthO]
    | undef => exact absurd e h1
  · refine hu.2 a C ?_
    cases e' : sample u with
    | ok wo D => simp only [e', dirW] at e; injection e with e; injection e with e1 e2; rw [e1, e2]
    | fail => simp only [e', dirW] at e; cases e
    | undef => simp only [e', dirW] at e; cases e

/-- The density is positive wherever the BSDF is not 0. -/
def Covers (m : Mat) (comp : Nat) (g : Geom) (wi : V3 ℝ) : Prop :=
  ∀ dir wo, V3.dot wo wo = 1 → ∃ P F, m.pdfDirection g wi wo comp false = some P ∧ m.eval g wi wo comp dir false = some F ∧ 0 ≤ P ∧ (P = 0 → F = 0)

/-- The BSDF is a measurable function of the direction. -/
def MeasurableEval (m : Mat) (comp : Nat) (g : Geom) (wi : V3 ℝ) : Prop :=
  ∀ dir, ∃ F : V3 ℝ → V3 ℝ, Measurable F ∧ ∀ d, V3.dot d d = 1 → m.eval g wi d comp dir false = some (F d)

theorem measurable_chan (i : Fin 3) : Measurable (chan i) := by
  fin_cases i
  · exact measurable_x
  · exact measurable_y
  · exact measurable_z

theorem measurable_value {F : V3 ℝ → V3 ℝ} (hF : Measurable F) (i : Fin 3) : Measurable fun d => value i (some (F d)) :=
  ENNReal.measurable_ofReal.comp ((measurable_chan i).comp hF)

end LM.Solid
