import Verif.Model.Vec
import Mathlib.MeasureTheory.Measure.Lebesgue.Basic
import Mathlib.MeasureTheory.Measure.WithDensity
import Mathlib.Analysis.SpecialFunctions.Sqrt
/-
  Measures the rendering literature uses, defined from Lebesgue measure: volume, solid angle and the uniform law of random numbers.
-/
namespace LM.Solid
open MeasureTheory LM

/-- Coordinates. -/
def toProd (v : V3 ℝ) : ℝ × ℝ × ℝ := (v.x, v.y, v.z)
def ofProd (p : ℝ × ℝ × ℝ) : V3 ℝ := ⟨p.1, p.2.1, p.2.2⟩

/-- The Borel sets of space. -/
instance : MeasurableSpace (V3 ℝ) := MeasurableSpace.comap toProd inferInstance

/-- Volume in space. -/
noncomputable def vol : Measure (V3 ℝ) := (volume : Measure (ℝ × ℝ × ℝ)).map ofProd

/-- The unit vector in the direction of p. -/
noncomputable def dirOf (p : V3 ℝ) : V3 ℝ := (1 / Real.sqrt (V3.dot p p)) • p

/-- Solid angle of a set of directions: three times the volume of the part of the unit ball seen in these directions. -/
noncomputable def solidAngle : Measure (V3 ℝ) := (3 : ENNReal) • (vol.restrict {p | 0 < V3.dot p p ∧ V3.dot p p < 1}).map dirOf

/-- Two independent random numbers, uniform in [0,1). -/
noncomputable def uniform2 : Measure (ℝ × ℝ) := volume.restrict (Set.Ico 0 1 ×ˢ Set.Ico 0 1)

/-- One random number, uniform in [0,1). -/
noncomputable def uniform1 : Measure ℝ := volume.restrict (Set.Ico 0 1)

/-- The barycentric coordinates of the points of a triangle (without its border). -/
def simplex : Set (ℝ × ℝ) := {q | 0 < q.1 ∧ 0 < q.2 ∧ q.1 + q.2 < 1}

end LM.Solid
