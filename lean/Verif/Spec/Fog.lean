import Verif.Spec.Transport
import Verif.Spec.Medium
/-
  What a volumetric path tracer computes: the radiance arriving at a point through a participating medium, and the average of a measurement over all random numbers.
-/
namespace LM.Transport
open MeasureTheory LM LM.Surface LM.Material LM.Light LM.Path LM.Render LM.Solid LM.Bound LM.Tracking
open scoped ENNReal

/-- A participating medium, for one colour channel: the box that bounds it, extinction coefficient and albedo at a point, and the point as a vertex of a path. -/
structure Fog where
  bound : Box ℝ
  extinction : V3 ℝ → ℝ
  albedo : V3 ℝ → ℝ
  vertex : V3 ℝ → SI

/-- The length of the ray from p up to what it hits: the medium is taken into account up to Inf = 10^10 if that is at infinity or if nothing is hit. -/
noncomputable def reach (p : V3 ℝ) : Option SI → ℝ
  | none => Surface.Inf
  | some h => if h.geom.infinite then Surface.Inf else Real.sqrt (V3.dot (h.geom.p - p) (h.geom.p - p))

/-- The radiance that arrives at o from direction d through the medium (volume rendering equation): L p is scattered at the point p of the medium towards o, w comes from the surface behind. -/
noncomputable def Fog.through (F : Fog) (S : Optics) (o d : V3 ℝ) (L : V3 ℝ → ℝ≥0∞) (w : ℝ≥0∞) : ℝ≥0∞ :=
  radiance F.bound (fun t => F.extinction (o + t • d)) (fun t => F.albedo (o + t • d)) o d 0 (reach o (S.isect o d)) L w

/-- The radiance arriving at the point sp from direction d after at most k - 1 scatterings at surfaces or in the medium: what is emitted and scattered by the surface seen there and what is scattered by the
    medium on the way, attenuated by the medium. -/
noncomputable def Fog.incoming (F : Fog) (S : Optics) : ℕ → SI → V3 ℝ → ℝ≥0∞
  | 0, _, _ => 0
  | k + 1, sp, d => F.through S sp.geom.p d
    (fun p => ∑ c ∈ S.comps (F.vertex p) (-d), ∫⁻ d', F.incoming S k (F.vertex p) d' ∂S.scatter (F.vertex p) (-d) c)
    (match S.isect sp.geom.p d with
      | none => 0
      | some hit => S.emit hit (-d) + if hit.geom.infinite then 0 else ∑ c ∈ S.comps hit (-d), ∫⁻ d', F.incoming S k hit d' ∂S.scatter hit (-d) c)

/-- Average over the random numbers of one iteration, in the order of their use: light sampling, transmittance towards the light (law μ), direction, distance (law μ), roulette, component. -/
noncomputable def averageVolStep {Ω : Type} [MeasurableSpace Ω] (μ : Measure Ω) (f : Rnd → Ω → Ω → ℝ≥0∞) : ℝ≥0∞ :=
  averageLight fun l => ∫⁻ t, ∫⁻ u, ∫⁻ s, ∫⁻ a, ∫⁻ b, f ⟨l, ⟨u.1, u.2.1, u.2.2⟩, a, b⟩ t s ∂uniform1 ∂uniform1 ∂μ ∂uniform3 ∂μ

/-- Average over the random numbers of the k iterations from nv on. -/
noncomputable def averageVol {Ω : Type} [MeasurableSpace Ω] (μ : Measure Ω) : ℕ → ℕ → (ℕ → Rnd) → (ℕ → Ω × Ω) → ((ℕ → Rnd) → (ℕ → Ω × Ω) → ℝ≥0∞) → ℝ≥0∞
  | 0, _, rs, ms, f => f rs ms
  | k + 1, nv, rs, ms, f => averageVolStep μ fun r t s => averageVol μ k (nv + 1) (Function.update rs nv r) (Function.update ms nv (t, s)) f

/-- The queries of a run, given the random numbers for the medium in each iteration. -/
def volQuery {Ω : Type} (dist : Ω → SI → V3 ℝ → DRes) (tr : Ω → SI → SI → Option (V3 ℝ)) (ms : ℕ → Ω × Ω) : VQuery := ⟨fun nv => dist (ms nv).2, fun nv => tr (ms nv).1⟩

end LM.Transport
