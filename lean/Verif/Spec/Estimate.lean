import Verif.Spec.Density
/-
  What it means that a sampling function gives an unbiased estimate of an integral.
-/
namespace LM.Solid
open MeasureTheory LM LM.Surface LM.Material
open scoped ENNReal

/-- One of the three colour channels. -/
def chan (i : Fin 3) (v : V3 ℝ) : ℝ := match i with | 0 => v.x | 1 => v.y | 2 => v.z

/-- One channel of a value; an undefined value counts as infinite. -/
noncomputable def value (i : Fin 3) : Option (V3 ℝ) → ℝ≥0∞
  | none => ⊤
  | some f => ENNReal.ofReal (chan i f)

/-- One channel of the estimate made with a sampled direction: the weight times what arrives from that direction. No direction: nothing; undefined behaviour counts as infinite. -/
noncomputable def worth (i : Fin 3) (L : V3 ℝ → ℝ≥0∞) : DirRes → ℝ≥0∞
  | .ok wo C => ENNReal.ofReal (chan i C) * L wo
  | .fail => 0
  | .undef => ⊤

/-- Fed with random numbers of law μ, the expected value of the estimate is the integral of f times what arrives, for whatever arrives. -/
def Unbiased {U : Type} [MeasurableSpace U] (μ : Measure U) (sample : U → DirRes) (σ : Measure (V3 ℝ)) (f : V3 ℝ → Option (V3 ℝ)) : Prop :=
  ∀ i L, Measurable L → ∫⁻ u, worth i L (sample u) ∂μ = ∫⁻ d, value i (f d) * L d ∂σ

/-- Component comp of the material m, seen from wi, estimates the reflected radiance: the integral of the BSDF times the incident radiance over projected solid angle. -/
def MaterialUnbiased (m : Mat) (comp : Nat) (g : Geom) (wi : V3 ℝ) : Prop :=
  ∀ dir, Unbiased uniform3 (fun u => m.sampleDirection ⟨u.1, u.2.1, u.2.2⟩ g wi comp dir) (projSolidAngle g.n) (fun d => m.eval g wi d comp dir false)

/-- The phase function ph, seen from wi, estimates the in-scattered radiance: the integral of the phase function times the incident radiance over solid angle. -/
def PhaseUnbiased (ph : Volume.Phase) (wi : V3 ℝ) : Prop := Unbiased uniform2 (fun q => ph.sampleDirection q.1 q.2 wi) solidAngle (fun d => ph.eval wi d)

/-- The same for a sampling function with outcomes of any kind: `sample u` is the outcome with its weight, if any. -/
noncomputable def worthO {α : Type} (i : Fin 3) (L : α → ℝ≥0∞) : Option (α × V3 ℝ) → ℝ≥0∞
  | some (a, C) => ENNReal.ofReal (chan i C) * L a
  | none => 0

def UnbiasedO {U α : Type} [MeasurableSpace U] [MeasurableSpace α] (μ : Measure U) (sample : U → Option (α × V3 ℝ)) (σ : Measure α) (f : α → Option (V3 ℝ)) : Prop :=
  ∀ i L, Measurable L → ∫⁻ u, worthO i L (sample u) ∂μ = ∫⁻ a, value i (f a) * L a ∂σ

/-- One channel of the estimate made with a sampled ray: the weight times a function of the vertex and the direction. No ray: nothing; undefined behaviour and exceptions count as infinite. -/
noncomputable def worthRay (i : Fin 3) (L : Geom → V3 ℝ → ℝ≥0∞) : Light.Res → ℝ≥0∞
  | .ok g wo C => ENNReal.ofReal (chan i C) * L g wo
  | .fail => 0
  | .undef => ⊤
  | .unsupported => ⊤

end LM.Solid
