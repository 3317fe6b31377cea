import Verif.Spec.Outdoors
import Verif.Spec.Lamps
/-
  Scenes described by their triangles, with lights of all kinds.
-/
namespace LM.Transport
open MeasureTheory LM LM.Surface LM.Material LM.Light LM.Path LM.Render LM.Solid

/-- The queries of a scene with an environment light at the node `sky`, or without one: as for `OpenSky`, and a ray that goes through no triangle meets nothing if there is no environment light. Points at infinity are seen if no triangle is in
    their direction. -/
structure Surroundings (Q : Query) (Fs : List (Int × Tri)) (sky : Option Int) : Prop where
  under : ∀ s, sky = some s → OpenSky Q Fs s
  void : sky = none → ∀ o d, Passes Fs o d → Q.isect o d = none
  unit : ∀ o d, V3.dot d d ≠ 1 → Q.isect o d = none
  visible : ∀ s1 s2 : SI, s1.geom.infinite = false → s2.geom.infinite = true → V3.dot s2.geom.wo s2.geom.wo = 1 → (Q.visible s1 s2 = true ↔ Passes Fs s1.geom.p (-s2.geom.wo))

/-- The triangles are inside the sphere of radius r around c (the bounding sphere of the scene, somewhat enlarged, from which lights at infinity emit: light_envconst.cpp:38-43). -/
def Within (ps : List Part) (c : V3 ℝ) (r : ℝ) : Prop := 0 < r ∧ ∀ f ∈ faces ps, ∀ p, Inside f.2 p → V3.dot (p - c) (p - c) < r * r

/-- The light at a node of a scene, and what kind of source it is: an area light, which consists of all triangles `ts` of the node; a point light, in the plane of no triangle and not at the camera; a directional light, parallel to no triangle;
    a constant environment light; an environment map. -/
inductive AnyLight (ps : List Part) (cam : Camera) (sky : Option Int) (node : Int) (M : Aff ℝ) : Light → Source → Prop
  | area (sgn : V3 ℝ → Bool) (junk Ke : V3 ℝ) (ts : List Tri) (size : 0 < (ts.map triArea).sum ∧ M.det ≠ 0 ∧ ScalesArea M ts) (nonneg : NonNeg Ke) (parts : ps.filter (·.prim = node) = ts.map fun t => ⟨node, M, t⟩) (other : sky ≠ some node) :
      AnyLight ps cam sky node M (Light.area sgn junk Ke ts) .extended
  | point (I p junk : V3 ℝ) (nonneg : NonNeg I) (out : ∀ a ∈ ps, a.prim ≠ node) (other : sky ≠ some node) (aside : ∀ f ∈ faces ps, V3.dot (triCross f.2) (f.2.a - p) ≠ 0) (away : cam.position ≠ p) :
      AnyLight ps cam sky node M (Light.point I p junk) (.point I p junk)
  | sun (sgn : V3 ℝ → Bool) (junk E d c : V3 ℝ) (r : ℝ) (nonneg : NonNeg E) (unit : V3.dot d d = 1) (out : ∀ a ∈ ps, a.prim ≠ node) (other : sky ≠ some node) (aside : ∀ f ∈ faces ps, V3.dot (triCross f.2) d ≠ 0) (within : Within ps c r) :
      AnyLight ps cam sky node M (directional sgn junk E d c r) (.beam E d junk)
  | const (sgn : V3 ℝ → Bool) (junk Le c : V3 ℝ) (r : ℝ) (nonneg : NonNeg Le) (top : sky = some node) (within : Within ps c r) (sign : MeasurableSet {d | sgn d = true}) :
      AnyLight ps cam sky node M (envconst sgn junk Le c r) .extended
  | map (sgn : V3 ℝ → Bool) (junk : V3 ℝ) (tex : ℝ → ℝ → V3 ℝ) (ws : List ℝ) (w h : Nat) (d2 : Dist.Dist2 ℝ) (rot : ℝ) (c : V3 ℝ) (r : ℝ) (m : MapOk tex ws w h) (hd : Dist.init Dist.fresh ws w h = some d2) (top : sky = some node)
      (within : Within ps c r) (sign : MeasurableSet {d | sgn d = true}) : AnyLight ps cam sky node M (env sgn junk tex d2 rot c r) .extended

/-- The lights of a scene, in the order of the table of lights. -/
structure AnyLights (W : World) (ps : List Part) (cam : Camera) (sky : Option Int) (node : ℕ → Int) (M : ℕ → Aff ℝ) (Lt : ℕ → Light) (src : ℕ → Source) : Prop where
  table : LightTable W node M Lt
  each : ∀ l < W.st.lights.length, AnyLight ps cam sky (node l) (M l) (Lt l) (src l)
  /-- every primitive with a light is in the table of lights, and so is the environment light -/
  only : ∀ a ∈ ps, ∀ L, W.lightAt a.prim = some L → ∃ l < W.st.lights.length, a.prim = node l
  env : ∀ s, sky = some s → ∃ l < W.st.lights.length, s = node l

end LM.Transport
