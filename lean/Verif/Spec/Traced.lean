import Verif.Props.C86_Surface
/-
  Scenes of triangles whose queries are answered by the nearest intersection.
-/
namespace LM.Transport
open LM LM.Surface LM.Light LM.Path LM.Render LM.Solid

/-- The ray from o in direction d goes through the triangle (without its border) at distance s, and is not parallel to it. -/
def Crosses (t : Tri) (o d : V3 ℝ) (s : ℝ) : Prop := 0 < s ∧ V3.dot (triCross t) d ≠ 0 ∧ Inside t (o + s • d)

/-- Nothing is strictly between p and q. -/
def Unblocked (Fs : List (Int × Tri)) (p q : V3 ℝ) : Prop := ∀ g ∈ Fs, ∀ r, Crosses g.2 p (q - p) r → 1 ≤ r

/-- h is what the ray meets first. -/
def FirstHit (Fs : List (Int × Tri)) (vertex : Int → V3 ℝ → SI) (o d : V3 ℝ) (h : SI) : Prop :=
  ∃ f ∈ Fs, ∃ s, Crosses f.2 o d s ∧ h = vertex f.1 (o + s • d) ∧ ∀ g ∈ Fs, ∀ r, Crosses g.2 o d r → s ≤ r

/-- The queries of a scene of triangles (scene.h:323-366: `intersect` is the nearest intersection, `visible` is that nothing is strictly between two points; with 0 for the tolerance Eps, and for rays of
    unit direction, which are those that the renderers use). -/
structure Traced (Q : Query) (Fs : List (Int × Tri)) (vertex : Int → V3 ℝ → SI) : Prop where
  isect : ∀ o d h, Q.isect o d = some h ↔ V3.dot d d = 1 ∧ FirstHit Fs vertex o d h
  visible : ∀ s1 s2 : SI, s1.geom.infinite = false → s2.geom.infinite = false → (Q.visible s1 s2 = true ↔ Unblocked Fs s1.geom.p s2.geom.p)

/-- Triangles of positive area that have no points in common (except on their borders). -/
structure Separate (Fs : List (Int × Tri)) : Prop where
  area : ∀ f ∈ Fs, 0 < twiceArea f.2
  apart : ∀ (k k' : ℕ) (f f' : Int × Tri) (p : V3 ℝ), Fs[k]? = some f → Fs[k']? = some f' → Inside f.2 p → Inside f'.2 p → k = k'

end LM.Transport
