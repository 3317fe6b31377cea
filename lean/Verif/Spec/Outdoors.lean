import Verif.Spec.Skins
/-
  Scenes described by their triangles, with an environment light beside the area lights.
-/
namespace LM.Transport
open MeasureTheory LM LM.Surface LM.Material LM.Light LM.Path LM.Render LM.Solid

/-- The ray goes through no triangle. -/
def Passes (Fs : List (Int × Tri)) (o d : V3 ℝ) : Prop := ∀ f ∈ Fs, ∀ s, ¬ Crosses f.2 o d s

/-- The queries of a scene with the environment light at the node `sky` (scene.cpp:319-332, scene.h:343-364): a ray that goes through no triangle meets the environment, which is seen in a direction if no triangle is there. (With 0 for the
    tolerance Eps, no bound on the size of the scene, and for rays of unit direction.) -/
structure OpenSky (Q : Query) (Fs : List (Int × Tri)) (sky : Int) : Prop where
  isect : ∀ o d, V3.dot d d = 1 → Passes Fs o d → ∃ g : Geom, Q.isect o d = some ⟨.light, sky, g⟩ ∧ g.infinite = true ∧ g.wo = -d
  unit : ∀ o d, V3.dot d d ≠ 1 → Q.isect o d = none
  visible : ∀ (s : SI) (g : Geom), s.geom.infinite = false → g.infinite = true → V3.dot g.wo g.wo = 1 → (Q.visible s ⟨.light, sky, g⟩ = true ↔ Passes Fs s.geom.p (-g.wo))
  /-- the environment light has no triangles (scene.cpp:107-117) -/
  apart : ∀ f ∈ Fs, f.1 ≠ sky

/-- The queries without the environment. -/
def indoors (Q : Query) : Query := ⟨fun o d => (Q.isect o d).filter fun h => !h.geom.infinite, Q.visible⟩

/-- An environment light: constant (light::envconst), or a map (light::env). The requirements on maps are those of `C82_map`: the sampling weights `ws` are not negative, every row has a positive one, and where one is 0 the map is black. -/
inductive Heaven : Light → Prop
  | const (sgn : V3 ℝ → Bool) (junk Le c : V3 ℝ) (r : ℝ) (hr : 0 < r) (hLe : NonNeg Le) : Heaven (envconst sgn junk Le c r)
  | map (sgn : V3 ℝ → Bool) (junk : V3 ℝ) (tex : ℝ → ℝ → V3 ℝ) (ws : List ℝ) (w h : Nat) (d2 : Dist.Dist2 ℝ) (rot : ℝ) (c : V3 ℝ) (r : ℝ) (m : MapOk tex ws w h) (hd : Dist.init Dist.fresh ws w h = some d2) :
      Heaven (env sgn junk tex d2 rot c r)

/-- The lights: the environment light L, the l0-th in the table of lights; the others are area lights: the l-th consists of all triangles `ts l` of the primitive `node l`, with the transform `M l`, and emits `Ke l`. -/
structure Daylight (W : World) (ps : List Part) (l0 : ℕ) (L : Light) (node : ℕ → Int) (M : ℕ → Aff ℝ) (sgn : V3 ℝ → Bool) (junk : V3 ℝ) (Ke : ℕ → V3 ℝ) (ts : ℕ → List Tri) : Prop where
  table : LightTable W node M fun l => if l = l0 then L else area sgn junk (Ke l) (ts l)
  inside : l0 < W.st.lights.length
  heaven : Heaven L
  size : ∀ l < W.st.lights.length, l ≠ l0 → 0 < ((ts l).map triArea).sum ∧ (M l).det ≠ 0 ∧ ScalesArea (M l) (ts l)
  nonneg : ∀ l < W.st.lights.length, l ≠ l0 → NonNeg (Ke l)
  /-- every primitive with a light is in the table of lights -/
  only : ∀ a ∈ ps, ∀ L, W.lightAt a.prim = some L → ∃ l < W.st.lights.length, a.prim = node l
  /-- the triangles of an area light are in the scene -/
  parts : ∀ l < W.st.lights.length, l ≠ l0 → ps.filter (·.prim = node l) = (ts l).map fun t => ⟨node l, M l, t⟩

end LM.Transport
