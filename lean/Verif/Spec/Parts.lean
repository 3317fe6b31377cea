import Verif.Spec.Traced
import Verif.Props.C82_Lamps
/-
  Scenes described by their triangles: each with its primitive and its transform.
-/
namespace LM.Transport
open MeasureTheory LM LM.Surface LM.Material LM.Light LM.Path LM.Render LM.Solid

/-- A triangle of a mesh, of the primitive `prim`, whose node has the transform M. -/
structure Part where
  prim : Int
  M : Aff ℝ
  t : Tri

/-- The triangles in world space. -/
noncomputable def faces (ps : List Part) : List (Int × Tri) := ps.map fun a => (a.prim, triMap a.M a.t)

open Classical in
/-- The normal at the point p of the primitive j: that of the triangle (geometry_normal, math.h:560-562), transformed by the normal matrix and normalized (scene.cpp:333-345). Outside of the triangles it does not matter. -/
noncomputable def normalAt : List Part → Int → V3 ℝ → V3 ℝ
  | [], _, _ => ⟨0, 0, 1⟩
  | a :: ps, j, p => if a.prim = j ∧ Inside (triMap a.M a.t) p then frontNormal a.M a.t else normalAt ps j p

/-- The interaction at the point p of the primitive j, without shading normals. -/
noncomputable def vertexAt (ps : List Part) (sgn : V3 ℝ → Bool) (junk : V3 ℝ) (j : Int) (p : V3 ℝ) : SI :=
  ⟨.surface, j, makeOnSurface p (normalAt ps j p) (normalAt ps j p) (sgn (normalAt ps j p)) junk⟩

/-- A room: a camera and separate triangles, none of them in a plane with the camera or in the plane of the eye; every query is answered by the nearest intersection. -/
structure Room (W : World) (Q : Query) (n : Int) (cam : Camera) (ps : List Part) (sgn : V3 ℝ → Bool) (junk : V3 ℝ) : Prop where
  camera : W.st.camera = some n
  cameraAt : W.cameraAt n = some cam
  proper : cam.Proper
  separate : Separate (faces ps)
  regular : ∀ a ∈ ps, a.M.det ≠ 0
  traced : Traced Q (faces ps) (vertexAt ps sgn junk)
  /-- the camera is not in the plane of a triangle -/
  aside : ∀ f ∈ faces ps, V3.dot (triCross f.2) (f.2.a - cam.position) ≠ 0
  /-- not all corners are in the plane through the camera that is perpendicular to its axis -/
  tilted : ∀ f ∈ faces ps, ¬ (V3.dot cam.w (f.2.a - cam.position) = 0 ∧ V3.dot cam.w (f.2.b - cam.position) = 0 ∧ V3.dot cam.w (f.2.c - cam.position) = 0)

/-- Diffuse, with the reflectance Kd, or glossy, with the reflectance Ks and the roughnesses ax and ay. -/
inductive Coat
  | diffuse (Kd : Geom → V3 ℝ)
  | glossy (Ks : V3 ℝ) (ax ay : ℝ)

noncomputable def Coat.mat : Coat → Mat
  | .diffuse Kd => Material.diffuse Kd
  | .glossy Ks ax ay => Material.glossy Ks ax ay

/-- Reflectances are not negative, and (as functions of the point) measurable; those of glossy materials are at most 1. Roughnesses are positive. -/
def Coat.Sound (vertex : V3 ℝ → SI) : Coat → Prop
  | .diffuse Kd => (∀ p, NonNeg (Kd (vertex p).geom)) ∧ Measurable fun p => Kd (vertex p).geom
  | .glossy Ks ax ay => 0 < ax ∧ 0 < ay ∧ NonNeg Ks ∧ NonNeg (V3.all 1 - Ks)

/-- The material of a surface: one of these, or a mixture of them with weights (material::constant_weight_mixture_rr or, with marginalized densities, material::constant_weight_mixture_marginalized), or the material
    of an OBJ model without mask texture (material::mixture_wavefrontobj). -/
inductive Finish
  | plain (k : Coat)
  | mix (ks : List (Coat × ℝ))
  | marg (ks : List (Coat × ℝ))
  | obj (Kd : Geom → V3 ℝ) (Ks : V3 ℝ) (ax ay : ℝ)

noncomputable def Finish.mat : Finish → Mat
  | .plain k => k.mat
  | .mix ks => mixtureRR (ks.map fun e => (e.1.mat, e.2))
  | .marg ks => mixtureMarg (ks.map fun e => (e.1.mat, e.2))
  | .obj Kd Ks ax ay => objMixture (Material.diffuse Kd) (Material.glossy Ks ax ay) fun _ => 1

/-- Mixtures are not empty, and have positive weights; the parts of the material of an OBJ model are as for diffuse and glossy materials. -/
def Finish.Sound (vertex : V3 ℝ → SI) : Finish → Prop
  | .plain k => k.Sound vertex
  | .mix ks => ks ≠ [] ∧ ∀ e ∈ ks, 0 < e.2 ∧ e.1.Sound vertex
  | .marg ks => ks ≠ [] ∧ ∀ e ∈ ks, 0 < e.2 ∧ e.1.Sound vertex
  | .obj Kd Ks ax ay => (Coat.diffuse Kd).Sound vertex ∧ (Coat.glossy Ks ax ay).Sound vertex

/-- The components that can be selected. -/
def Finish.comps : Finish → Finset ℕ
  | .plain _ => {0}
  | .mix ks => Finset.range ks.length
  | .marg _ => {0}
  | .obj .. => {0}

/-- The components of a vertex: those of the material of a surface; a camera has one. -/
def compsAt (fin : Int → Finish) (s : SI) (_ : V3 ℝ) : Finset ℕ :=
  match s.kind with
  | .surface => (fin s.primitive).comps
  | _ => {0}

/-- The primitives have these materials. -/
structure Paint (W : World) (ps : List Part) (sgn : V3 ℝ → Bool) (junk : V3 ℝ) (fin : Int → Finish) : Prop where
  material : ∀ a ∈ ps, W.materialAt a.prim = some (fin a.prim).mat
  sound : ∀ j, (fin j).Sound (vertexAt ps sgn junk j)

/-- The lights are area lights: the l-th consists of all triangles `ts l` of the primitive `node l`, with the transform `M l`, and emits `Ke l`. -/
structure Lighting (W : World) (ps : List Part) (node : ℕ → Int) (M : ℕ → Aff ℝ) (sgn : V3 ℝ → Bool) (junk : V3 ℝ) (Ke : ℕ → V3 ℝ) (ts : ℕ → List Tri) : Prop where
  table : LightTable W node M fun l => area sgn junk (Ke l) (ts l)
  size : ∀ l < W.st.lights.length, 0 < ((ts l).map triArea).sum ∧ (M l).det ≠ 0 ∧ ScalesArea (M l) (ts l)
  nonneg : ∀ l < W.st.lights.length, NonNeg (Ke l)
  /-- every primitive with a light is in the table of lights -/
  only : ∀ a ∈ ps, ∀ L, W.lightAt a.prim = some L → ∃ l < W.st.lights.length, a.prim = node l
  /-- the triangles of a light are in the scene -/
  parts : ∀ l < W.st.lights.length, ps.filter (·.prim = node l) = (ts l).map fun t => ⟨node l, M l, t⟩

end LM.Transport
