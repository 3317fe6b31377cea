import Verif.Spec.Fog
import Verif.Spec.Lamps
/-
  Point lights and parallel beams in a participating medium: what they shine on a point through the medium, and the radiance in a scene with a medium and such sources.
-/
namespace LM.Transport
open MeasureTheory LM LM.Surface LM.Material LM.Light LM.Path LM.Render LM.Solid LM.Bound LM.Tracking
open scoped ENNReal

/-- One channel of what arrives at a vertex from the visible sources without extent: irradiance, concentrated in the directions towards them, attenuated by the medium up to the source. -/
noncomputable def shineThrough (F : Fog) (Q : Query) (i : Fin 3) (n : ℕ) (node : ℕ → Int) (src : ℕ → Source) (sp : SI) : Measure (V3 ℝ) :=
  ∑ j ∈ Finset.range n, match (src j).shine sp.geom.p with
    | none => 0
    | some b => if Q.visible sp ⟨.light, node j, b.source⟩ then
        ENNReal.ofReal (chan i b.irradiance * cosineAt sp.geom b.dir * transmittance F.bound (fun t => F.extinction (sp.geom.p + t • b.dir)) sp.geom.p b.dir 0 (reach sp.geom.p (some ⟨.light, node j, b.source⟩))) •
          Measure.dirac b.dir
      else 0

/-- The radiance arriving at sp from direction d through the medium after at most k - 1 scatterings, in a scene where in addition `glow hit wo c` is what the component c at a surface or a point of the medium scatters
    towards wo of what arrives from sources without extent. -/
noncomputable def Fog.lit (F : Fog) (S : Optics) (glow : SI → V3 ℝ → ℕ → ℝ≥0∞) : ℕ → SI → V3 ℝ → ℝ≥0∞
  | 0, _, _ => 0
  | k + 1, sp, d => F.through S sp.geom.p d
    (fun p => ∑ c ∈ S.comps (F.vertex p) (-d), (∫⁻ d', F.lit S glow k (F.vertex p) d' ∂S.scatter (F.vertex p) (-d) c + if k = 0 then 0 else glow (F.vertex p) (-d) c))
    (match S.isect sp.geom.p d with
      | none => 0
      | some hit => S.emit hit (-d) + if hit.geom.infinite then 0 else ∑ c ∈ S.comps hit (-d), (∫⁻ d', F.lit S glow k hit d' ∂S.scatter hit (-d) c + if k = 0 then 0 else glow hit (-d) c))

end LM.Transport
