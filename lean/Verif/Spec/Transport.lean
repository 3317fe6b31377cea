import Verif.Spec.Estimate
import Verif.Model.Renderer
/-
  What a path tracer computes: the radiance arriving at a point, up to a number of surfaces, and the average of a measurement over all random numbers.
-/
namespace LM.Transport
open MeasureTheory LM LM.Surface LM.Material LM.Light LM.Path LM.Render LM.Solid
open scoped ENNReal

/-- A scene, for one colour channel: the first point seen from a point in a direction, the emission of a point in a direction, the components of the scattering at a point seen from a direction, and how
    much of what arrives is scattered by each of them (a measure on directions: for a BSDF its value times projected solid angle, for a mirror a point mass). -/
structure Optics where
  isect : V3 ℝ → V3 ℝ → Option SI
  emit : SI → V3 ℝ → ℝ≥0∞
  comps : SI → V3 ℝ → Finset ℕ
  scatter : SI → V3 ℝ → ℕ → Measure (V3 ℝ)

/-- The radiance arriving at the point sp from direction d after at most k - 1 scatterings (the rendering equation, iterated k times):
    the emission of what is seen there, plus the integral of what arrives there, scattered towards sp. Nothing is scattered at infinity. -/
noncomputable def Optics.incoming (S : Optics) : ℕ → SI → V3 ℝ → ℝ≥0∞
  | 0, _, _ => 0
  | k + 1, sp, d => match S.isect sp.geom.p d with
    | none => 0
    | some hit => S.emit hit (-d) + if hit.geom.infinite then 0 else ∑ c ∈ S.comps hit (-d), ∫⁻ d', S.incoming k hit d' ∂S.scatter hit (-d) c

/-- One channel of what a light primitive emits. -/
noncomputable def emitted (W : World) (i : Fin 3) (sp : SI) (wo : V3 ℝ) : ℝ≥0∞ := match W.lightAt sp.primitive with
  | none => 0
  | some L => ENNReal.ofReal (chan i (L.eval sp.geom wo true))

/-- One channel of what a sample adds to the film, weighted with a function H of the position on the film (e.g. 1 in a pixel and 0 elsewhere). Undefined behaviour counts as infinite. -/
noncomputable def measured (i : Fin 3) (H : ℝ × ℝ → ℝ≥0∞) : Option (List Splat) → ℝ≥0∞
  | none => ⊤
  | some l => (l.map fun s => H s.rp * ENNReal.ofReal (chan i s.C)).sum

/-- Average over the random numbers for light sampling: the light, the point on it, the direction. -/
noncomputable def averageLight (f : RaySampleU → ℝ≥0∞) : ℝ≥0∞ := ∫⁻ s, ∫⁻ p, ∫⁻ q, f ⟨p.1, p.2.1, s, p.2.2, q.1, q.2⟩ ∂uniform2 ∂uniform3 ∂uniform1

/-- Average over the random numbers of one iteration: independent and uniform in [0,1). -/
noncomputable def averageStep (f : Rnd → ℝ≥0∞) : ℝ≥0∞ := averageLight fun l => ∫⁻ u, ∫⁻ a, ∫⁻ b, f ⟨l, ⟨u.1, u.2.1, u.2.2⟩, a, b⟩ ∂uniform1 ∂uniform1 ∂uniform3

/-- Average over the random numbers of the k iterations from nv on. -/
noncomputable def average : ℕ → ℕ → (ℕ → Rnd) → ((ℕ → Rnd) → ℝ≥0∞) → ℝ≥0∞
  | 0, _, rs, f => f rs
  | k + 1, nv, rs, f => averageStep fun r => average k (nv + 1) (Function.update rs nv r) f

end LM.Transport
