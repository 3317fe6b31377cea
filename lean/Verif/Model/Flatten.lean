import Verif.Model.Bvh
import Verif.Model.Scene
import Verif.Model.Surface
import Verif.Model.Math
/-
  From the scene graph to a ray query: flattening of the graph into triangles (src/accel/accel_sahbvh.cpp:129-151), size of the node array (163), the result of a query (269-299), and
  Scene::intersect (src/scene.cpp:319-345).
  Simplifications: Float is ℚ. A mesh is the list of the corner positions of its faces, in the order of foreach_triangle (Model/Mesh and C67 treat the two mesh assets). Of a surface
  interaction only the primitive and the position are kept: normals need a square root and are the subject of C74. `int` overflow of sizes is left out.
-/
namespace LM.Accel
open LM LM.Bvh LM.Surface

/-- Positions of the corners of the faces of every mesh asset: what foreach_triangle enumerates (accel_sahbvh.cpp:145-150). -/
abbrev Meshes := ℕ → List (V3 ℚ × V3 ℚ × V3 ℚ)

/-- trs_ and flattened_nodes_, accel_sahbvh.cpp:117-119: a triangle with its flattened_node and face; a flattened node is a transform and a primitive. -/
structure Flat where
  trs : List (Tri × ℕ × ℕ)
  flat : List (Aff ℚ × Int)

/-- The triangles of one mesh, accel_sahbvh.cpp:145-150. -/
def meshTris (M : Aff ℚ) (fn : ℕ) (faces : List (V3 ℚ × V3 ℚ × V3 ℚ)) : List (Tri × ℕ × ℕ) :=
  faces.zipIdx.map fun q => (Tri.mk' (M.app q.1.1) (M.app q.1.2.1) (M.app q.1.2.2), fn, q.2)

/-- The callback of accel_sahbvh.cpp:132-151 for one visited node. -/
def flattenStep (nodes : List (Scene.Node (Aff ℚ))) (meshes : Meshes) (acc : Flat) (v : Int × Aff ℚ) : Flat :=
  match Scene.at? nodes v.1 with
  | some (.prim idx p) =>
    match p.mesh with
    | none => acc
    | some m => ⟨acc.trs ++ meshTris v.2 acc.flat.length (meshes m), acc.flat ++ [(v.2, idx)]⟩
  | _ => acc

/-- accel_sahbvh.cpp:130-151, given what the traversal visited. -/
def flatten (nodes : List (Scene.Node (Aff ℚ))) (meshes : Meshes) (out : List (Int × Aff ℚ)) : Flat := out.foldl (flattenStep nodes meshes) ⟨[], []⟩

/-- trs_[k], accel_sahbvh.cpp:194-296; beyond the end (never read, C36_in_range) some triangle. -/
def triAt (F : Flat) (k : ℕ) : Tri :=
  match F.trs[k]? with
  | some q => q.1
  | none => Tri.mk' 0 0 0

/-- nodes_.assign(2*nt-1, {}), accel_sahbvh.cpp:163: the number of nodes; none: for nt = 0 the argument is -1, as size_type the largest number, and assign throws std::length_error. -/
def allocNodes (nt : ℕ) : Option ℕ := if nt = 0 then none else some (2 * nt - 1)

/-- Accel::Hit, accel.h:49-55. -/
structure AHit where
  t : ℚ
  u : ℚ
  v : ℚ
  transform : Aff ℚ
  primitive : Int
  face : ℕ

/-- How a call ends (accel_sahbvh.cpp:269-299, scene.cpp:319-345). -/
inductive Out (α : Type)
  | ret (a : α)
  | throw              -- std::out_of_range from an .at
  | undef              -- undefined behaviour: stack overflow in the traversal, null mesh

/-- The constructed accelerator, accel_sahbvh.cpp:116-119. -/
structure Acc where
  nodes : ℕ → Bvh.Node
  idx : ℕ → ℕ
  flat : Flat

/-- The end of Accel_SAHBVH::intersect, accel_sahbvh.cpp:293-298. -/
def accelResult (A : Acc) : TOut → Out (Option AHit)
  | .finished st =>
    match st.best with
    | none => .ret none
    | some (h, i) =>
      match A.flat.trs[A.idx i]? with
      | none => .throw
      | some (_, fn, face) =>
        match A.flat.flat[fn]? with
        | none => .throw
        | some (M, prim) => .ret (some ⟨st.tmax, h.u, h.v, M, prim, face⟩)
  | .next _ => .undef
  | .overflow => .undef

/-- Accel_SAHBVH::intersect, accel_sahbvh.cpp:269-299, after at most `fuel` iterations of its loop; none: still running. -/
def accelIntersect (A : Acc) (r : Bound.Ray) (tmin tmax : ℚ) (fuel : ℕ) : Option (Out (Option AHit)) :=
  (trun A.nodes (triAt A.flat) A.idx r tmin fuel (TSt.init tmax)).map (accelResult A)

/-- What Scene::intersect returns, scene.cpp:319-345. -/
inductive SHit
  | miss
  | env (light : Int) (wo : V3 ℚ)
  | surface (primitive : Int) (p : V3 ℚ)

/-- scene.cpp:321-344, given the answer of the accelerator. -/
def sceneResult (st : Scene.St (Aff ℚ)) (meshes : Meshes) (r : Bound.Ray) (tmax : ℚ) : Out (Option AHit) → Out SHit
  | .undef => .undef
  | .throw => .throw
  | .ret none =>
    if tmax < Bound.Inf then .ret .miss
    else match st.envLight with
      | none => .ret .miss
      | some i => .ret (.env i (-r.d))
  | .ret (some h) =>
    match Scene.at? st.nodes h.primitive with
    | some (.prim _ p) =>
      match p.mesh with
      | none => .undef
      | some m =>
        match (meshes m)[h.face]? with
        | none => .undef
        | some (p1, p2, p3) => .ret (.surface h.primitive (h.transform.app (MathF.mixBarycentric p1 p2 p3 h.u h.v)))
    | some (.group _ _ _ _) => .undef
    | none => .throw

/-- Scene::intersect, scene.cpp:319-345. -/
def sceneIntersect (st : Scene.St (Aff ℚ)) (meshes : Meshes) (A : Acc) (r : Bound.Ray) (tmin tmax : ℚ) (fuel : ℕ) : Option (Out SHit) :=
  (accelIntersect A r tmin tmax fuel).map (sceneResult st meshes r tmax)

end LM.Accel
