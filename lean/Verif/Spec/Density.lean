import Verif.Spec.SolidAngle
import Verif.Model.Volume
import Verif.Model.Light
/-
  What it means that a sampling function has the density it reports.
-/
namespace LM.Solid
open MeasureTheory LM LM.Surface LM.Material
open scoped ENNReal

/-- The value of a reported density; an undefined value counts as infinite. -/
noncomputable def dens : Option ℝ → ℝ≥0∞
  | none => ⊤
  | some p => ENNReal.ofReal p

/-- Three independent random numbers, uniform in [0,1). -/
noncomputable def uniform3 : Measure (ℝ × ℝ × ℝ) := volume.restrict (Set.Ico 0 1 ×ˢ Set.Ico 0 1 ×ˢ Set.Ico 0 1)

/-- The random numbers for which a direction in A is sampled. -/
def event {U : Type} (sample : U → DirRes) (A : Set (V3 ℝ)) : Set U := {u | ∃ wo C, sample u = .ok wo C ∧ wo ∈ A}

/-- Fed with random numbers of law μ, the probability of sampling a direction in A is the integral over A of the density p, with respect to σ.
    (The density and the event are measurable, so that these are the integral and the probability.) -/
def HasDensity {U : Type} [MeasurableSpace U] (μ : Measure U) (sample : U → DirRes) (σ : Measure (V3 ℝ)) (p : V3 ℝ → Option ℝ) : Prop :=
  AEMeasurable (fun d => dens (p d)) σ ∧ ∀ A, MeasurableSet A → NullMeasurableSet (event sample A) μ ∧ μ (event sample A) = ∫⁻ d in A, dens (p d) ∂σ

/-- Projected solid angle at a surface with normal n. -/
noncomputable def projSolidAngle (n : V3 ℝ) : Measure (V3 ℝ) := solidAngle.withDensity fun d => ENNReal.ofReal |V3.dot d n|

/-- Component comp of the material m, seen from wi, samples directions with the density pdf_direction reports (with respect to projected solid angle). -/
def MaterialDensity (m : Mat) (comp : Nat) (g : Geom) (wi : V3 ℝ) : Prop :=
  ∀ dir, HasDensity uniform3 (fun u => m.sampleDirection ⟨u.1, u.2.1, u.2.2⟩ g wi comp dir) (projSolidAngle g.n) (fun d => m.pdfDirection g wi d comp false)

/-- The phase function samples directions with the density pdf_direction reports, with respect to solid angle. -/
def PhaseDensity (ph : Volume.Phase) (wi : V3 ℝ) : Prop :=
  HasDensity uniform2 (fun q => ph.sampleDirection q.1 q.2 wi) solidAngle (fun d => ph.pdfDirection wi d)

/-- The same for a sampling function that returns an outcome of any kind, or none. -/
def HasDensityO {U α : Type} [MeasurableSpace U] [MeasurableSpace α] (μ : Measure U) (sample : U → Option α) (σ : Measure α) (p : α → Option ℝ) : Prop :=
  AEMeasurable (fun a => dens (p a)) σ ∧ ∀ A, MeasurableSet A → NullMeasurableSet {u | ∃ a, sample u = some a ∧ a ∈ A} μ ∧ μ {u | ∃ a, sample u = some a ∧ a ∈ A} = ∫⁻ a in A, dens (p a) ∂σ

/-- The direction and the point of a sampled ray. -/
def resDir : Light.Res → Option (V3 ℝ)
  | .ok _ wo _ => some wo
  | _ => none
def resPoint : Light.Res → Option (V3 ℝ)
  | .ok g _ _ => some g.p
  | _ => none

end LM.Solid
