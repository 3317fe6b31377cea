import Verif.Spec.Transport
/-
  Light sources without extent: points and parallel beams. What they shine on a point, and the radiance in a scene with such sources.
-/
namespace LM.Transport
open MeasureTheory LM LM.Surface LM.Material LM.Light LM.Path LM.Render LM.Solid
open scoped ENNReal

/-- A light of a scene: one with extent (a surface or the sky), a point with the same radiant intensity in all directions, or a beam of parallel rays with the same irradiance everywhere.
    `junk`: the fields of the vertex on it that are not set. -/
inductive Source
  | extended
  | point (intensity position junk : V3 ℝ)
  | beam (irradiance direction junk : V3 ℝ)

/-- What shines on a point: the direction towards the source, the irradiance of a surface facing it, the vertex on the source. -/
structure Shine where
  dir : V3 ℝ
  irradiance : V3 ℝ
  source : Geom

/-- A point light at distance r shines with its intensity over r². A beam shines the same everywhere. -/
noncomputable def Source.shine (x : V3 ℝ) : Source → Option Shine
  | extended => none
  | point I p junk => some ⟨(1 / Real.sqrt (V3.dot (p - x) (p - x))) • (p - x), (1 / V3.dot (p - x) (p - x)) • I, makeDegenerated p junk⟩
  | beam E d junk => some ⟨-d, E, makeInfinite d junk junk⟩

/-- The cosine at a point of a surface; 1 at a point that is not on a surface (the camera). -/
noncomputable def cosineAt (g : Geom) (d : V3 ℝ) : ℝ := if g.degenerated then 1 else |V3.dot g.n d|

/-- One channel of what arrives at a vertex from the sources without extent that are visible from it: irradiance, concentrated in the directions towards them. -/
noncomputable def shineOn (Q : Query) (i : Fin 3) (n : ℕ) (node : ℕ → Int) (src : ℕ → Source) (sp : SI) : Measure (V3 ℝ) :=
  ∑ j ∈ Finset.range n, match (src j).shine sp.geom.p with
    | none => 0
    | some b => if Q.visible sp ⟨.light, node j, b.source⟩ then ENNReal.ofReal (chan i b.irradiance * cosineAt sp.geom b.dir) • Measure.dirac b.dir else 0

/-- The radiance arriving at sp from direction d after at most k - 1 scatterings, in a scene where in addition `glow hit wo c` is what the component c at hit scatters towards wo of what arrives from sources without
    extent: the rendering equation with that as a further source, iterated k times. A path from a source without extent has a vertex on the source, so that a path of one segment cannot have one from it to a surface and
    on to sp. -/
noncomputable def Optics.lit (S : Optics) (glow : SI → V3 ℝ → ℕ → ℝ≥0∞) : ℕ → SI → V3 ℝ → ℝ≥0∞
  | 0, _, _ => 0
  | k + 1, sp, d => match S.isect sp.geom.p d with
    | none => 0
    | some hit => S.emit hit (-d) + if hit.geom.infinite then 0 else ∑ c ∈ S.comps hit (-d), (∫⁻ d', S.lit glow k hit d' ∂S.scatter hit (-d) c + if k = 0 then 0 else glow hit (-d) c)

end LM.Transport
