import Verif.Model.Scene
import Verif.Model.Light
import Verif.Model.Bound
/-
  The extent of the scene as the lights know it: the second half of Scene::build (src/scene.cpp:288-312) and set_scene_bound of the lights (include/lm/light.h:34-36,
  src/light/light_directional.cpp:41-46, light_env.cpp:77-82, light_envconst.cpp:38-43).
  A light is an asset: every scene that has it as the light of a primitive writes to the same object. The model therefore has several scenes and one table of lights.
  Simplifications: Float is ℝ. A mesh is the list of the corner positions of its faces. The acceleration structure, built last (scene.cpp:314-316), is left out here (Model/Flatten).
-/
namespace LM.SceneBound
open LM LM.Scene LM.Bound LM.Surface LM.Light

/-- Positions of the corners of the faces of every mesh asset: what foreach_triangle enumerates (scene.cpp:297-304). -/
abbrev Corners (K : Type) := ℕ → List (V3 K × V3 K × V3 K)

section Box
variable {K : Type} [Field K] [LinearOrder K]

/-- One triangle, scene.cpp:297-304: the three transformed corners are merged in turn. -/
def triStep (M : Aff K) (b : Box K) (t : V3 K × V3 K × V3 K) : Box K :=
  mergeP (mergeP (mergeP b (M.app t.1)) (M.app t.2.1)) (M.app t.2.2)

/-- The callback of the second traversal, scene.cpp:290-305, for one visited node. -/
def boundStep (nodes : List (Node (Aff K))) (meshes : Corners K) (b : Box K) (v : Int × Aff K) : Box K :=
  match at? nodes v.1 with
  | some (.prim _ p) =>
    match p.mesh with
    | none => b
    | some m => (meshes m).foldl (triStep v.2) b
  | _ => b

/-- The scene bound, scene.cpp:288-305, given what the traversal visited. -/
def sceneBound (nodes : List (Node (Aff K))) (meshes : Corners K) (out : List (Int × Aff K)) : Box K := out.foldl (boundStep nodes meshes) dflt
end Box

/-- The sphere a light holds, math.h:184-186; none: set_scene_bound has not been called, the members are uninitialised. -/
abbrev Spheres := ℕ → Option (V3 ℝ × ℝ)

/-- The loop over the lights, scene.cpp:307-311. Only the lights at infinity override set_scene_bound, for the others it does nothing (light.h:34-36). none: the node of the index is missing or has no
    light (an exception, or a null pointer is dereferenced). -/
noncomputable def setBounds (infinite : ℕ → Bool) (nodes : List (Node (Aff ℝ))) (s : V3 ℝ × ℝ) : List (Aff ℝ × Int) → Spheres → Option Spheres
  | [], f => some f
  | l :: ls, f =>
    match at? nodes l.2 with
    | some (.prim _ p) =>
      match p.light with
      | none => none
      | some k => setBounds infinite nodes s ls (if infinite k then fun j => if j = k then some s else f j else f)
    | _ => none

/-- All scenes and the lights they share (scene.cpp:22-28, light_directional.cpp:24). -/
structure World where
  scenes : ℕ → St (Aff ℝ)
  sphere : Spheres

/-- Nothing has been called (scene.cpp:48-51). -/
def World.init : World := ⟨fun _ => reset, fun _ => none⟩

/-- Calls on scene k (scene.cpp:54-317). An `edit` with Op.build is a build that ended with an exception during its first traversal, having visited the given nodes: the lights have learnt nothing.
    `fuel` is the recursion depth the stack allows. -/
inductive Call
  | edit (k : ℕ) (op : Op (Aff ℝ))
  | build (k : ℕ) (fuel : ℕ)

variable [Mul (Aff ℝ)] [One (Aff ℝ)]

/-- build, scene.cpp:274-312; none: it does not return normally. -/
noncomputable def build (infinite : ℕ → Bool) (meshes : Corners ℝ) (w : World) (k fuel : ℕ) : Option World :=
  match traverse (w.scenes k).nodes fuel with
  | .done out =>
    let st := buildLights (w.scenes k) out
    let b := sceneBound st.nodes meshes out
    match setBounds infinite st.nodes (sphereBound b.min b.max) st.lights w.sphere with
    | some f => some ⟨fun j => if j = k then st else w.scenes j, f⟩
    | none => none
  | _ => none

/-- One call (scene.cpp:54-317). -/
noncomputable def step (isEnv infinite : ℕ → Bool) (meshes : Corners ℝ) (w : World) : Call → Option World
  | .edit k op => some { w with scenes := fun j => if j = k then (Scene.step isEnv (w.scenes k) op).1 else w.scenes j }
  | .build k fuel => build infinite meshes w k fuel

/-- A history of calls, oldest first (scene.cpp:54-317). -/
noncomputable def run (isEnv infinite : ℕ → Bool) (meshes : Corners ℝ) : World → List Call → Option World
  | w, [] => some w
  | w, c :: cs => (step isEnv infinite meshes w c).bind (fun w => run isEnv infinite meshes w cs)

end LM.SceneBound
