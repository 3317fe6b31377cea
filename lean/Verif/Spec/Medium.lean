import Verif.Spec.Estimate
import Mathlib.MeasureTheory.Integral.Bochner.Set
/-
  What it means that a random loop has an expected value, and what light along a ray through a medium should be.
-/
namespace LM.Tracking
open MeasureTheory LM LM.Solid LM.Volume LM.Bound
open scoped ENNReal Topology

/-- The average of f over n independent random numbers, uniform in [0,1). -/
noncomputable def mean : ℕ → (List ℝ → ℝ≥0∞) → ℝ≥0∞
  | 0, f => f []
  | n + 1, f => ∫⁻ u, mean n (fun us => f (u :: us)) ∂uniform1

/-- The value F of an outcome. A loop that is not finished with the given random numbers counts as zero, undefined behaviour as infinite. -/
noncomputable def gain {α : Type} (F : α → ℝ≥0∞) : Track α → ℝ≥0∞
  | .more => 0
  | .undef => ⊤
  | .done a => F a

/-- v is the expected value of F over the runs of a random loop: the averages over the runs that need at most n random numbers tend to v. -/
def Expects {α : Type} (loop : List ℝ → Track α) (F : α → ℝ≥0∞) (v : ℝ≥0∞) : Prop :=
  Filter.Tendsto (fun n => mean n fun us => gain F (loop us)) Filter.atTop (𝓝 v)

/-- One channel of the estimate made with a sampled distance: the weight times the light L scattered at the point of interaction, or times the light w that comes from behind the medium. -/
noncomputable def along (i : Fin 3) (L : V3 ℝ → ℝ≥0∞) (w : ℝ≥0∞) : DistRes → ℝ≥0∞
  | .none => w
  | .undef => ⊤
  | .ok p C true => ENNReal.ofReal (chan i C) * L p
  | .ok _ C false => ENNReal.ofReal (chan i C) * w

/-- The parameters of the part of the ray o + t d, tmin ≤ t ≤ tmax, inside the box b. -/
def inside (b : Box ℝ) (o d : V3 ℝ) (tmin tmax : ℝ) : Set ℝ := {t | tmin ≤ t ∧ t ≤ tmax ∧
  (b.min.x ≤ o.x + t * d.x ∧ o.x + t * d.x ≤ b.max.x) ∧ (b.min.y ≤ o.y + t * d.y ∧ o.y + t * d.y ≤ b.max.y) ∧ (b.min.z ≤ o.z + t * d.z ∧ o.z + t * d.z ≤ b.max.z)}

/-- Beer-Lambert: the transmittance of the segment for extinction σ(t) at o + t d inside the box. -/
noncomputable def transmittance (b : Box ℝ) (σ : ℝ → ℝ) (o d : V3 ℝ) (tmin tmax : ℝ) : ℝ := Real.exp (-∫ t in inside b o d tmin tmax, σ t)

/-- The radiance that arrives along the ray (the volume rendering equation, one channel): light L scattered at points inside the medium, with extinction σ and albedo a,
    attenuated from there on, plus the light w from behind. -/
noncomputable def radiance (b : Box ℝ) (σ a : ℝ → ℝ) (o d : V3 ℝ) (tmin tmax : ℝ) (L : V3 ℝ → ℝ≥0∞) (w : ℝ≥0∞) : ℝ≥0∞ :=
  (∫⁻ t in inside b o d tmin tmax, ENNReal.ofReal (σ t * transmittance b σ o d tmin t * a t) * L (o + t • d)) + ENNReal.ofReal (transmittance b σ o d tmin tmax) * w

end LM.Tracking
