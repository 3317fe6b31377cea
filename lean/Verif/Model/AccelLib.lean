import Verif.Model.Flatten
/-
  The acceleration structures that hand the scene to a ray tracing library: plugin/accel_embree/accel_embree.cpp, plugin/accel_embree/accel_embree_instanced.cpp and plugin/accel_nanort/accel_nanort.cpp.
  Modelled: what is handed to the library, and how its answer becomes an Accel::Hit. The library itself is not modelled; what is assumed of it is `Reports` in Props/C93_Accels.
  Simplifications: Float is ℚ, and so are the 32-bit coordinates passed to Embree. Device handles, build settings, error callbacks, reference counts of library objects and floating-point exception guards are left out.
-/
namespace LM.Accel
open LM LM.Surface

/-- Vertex and index memory of a triangle mesh handed to a library (accel_embree.cpp:105-117, accel_nanort.cpp:60-62); none: not written. -/
structure Buf where
  vs : ℕ → Option (V3 ℚ)
  fs : ℕ → Option (ℕ × ℕ × ℕ)

/-- `a[i] = x` (accel_embree.cpp:111-116). -/
def upd {α : Type} (f : ℕ → Option α) (i : ℕ) (x : α) : ℕ → Option α := fun j => if j = i then some x else f j

/-- The callback for one face, accel_embree.cpp:107-117, accel_embree_instanced.cpp:198-208. -/
def writeFace (M : Aff ℚ) (b : Buf) (q : (V3 ℚ × V3 ℚ × V3 ℚ) × ℕ) : Buf :=
  ⟨upd (upd (upd b.vs (3 * q.2) (M.app q.1.1)) (3 * q.2 + 1) (M.app q.1.2.1)) (3 * q.2 + 2) (M.app q.1.2.2), upd b.fs q.2 (3 * q.2, 3 * q.2 + 1, 3 * q.2 + 2)⟩

/-- The buffers of one mesh, accel_embree.cpp:103-118, accel_embree_instanced.cpp:194-209. -/
def meshBuf (M : Aff ℚ) (faces : List (V3 ℚ × V3 ℚ × V3 ℚ)) : Buf := faces.zipIdx.foldl (writeFace M) ⟨fun _ => none, fun _ => none⟩

/-- A geometry attached to a library scene: a triangle mesh, or a transformed library scene (accel_embree.cpp:103-120, accel_embree_instanced.cpp:194-226). -/
inductive Geom
  | mesh (b : Buf)
  | inst (M : Aff ℚ) (sub : List (ℕ × Geom))

/-- RTCRayHit after rtcIntersect1 found something (accel_embree.cpp:134-163); for nanort TriangleIntersection (accel_nanort.cpp:89-96), with prim_id as `prim`. -/
structure LibHit where
  t : ℚ
  u : ℚ
  v : ℚ
  inst : Option ℕ
  geom : ℕ
  prim : ℕ

/-! ### accel::embree -/

/-- scene_ and flattened_nodes_, accel_embree.cpp:34-38. -/
structure Embree where
  scene : List (ℕ × Geom)
  flat : List (Aff ℚ × Int)

/-- reset and rtcNewScene, accel_embree.cpp:71-84. -/
def Embree.fresh (_old : Embree) : Embree := ⟨[], []⟩

/-- The callback of accel_embree.cpp:91-121 for one visited node. -/
def Embree.step (nodes : List (Scene.Node (Aff ℚ))) (meshes : Meshes) (A : Embree) (v : Int × Aff ℚ) : Embree :=
  match Scene.at? nodes v.1 with
  | some (.prim idx p) =>
    match p.mesh with
    | none => A
    | some m => ⟨A.scene ++ [(A.flat.length, .mesh (meshBuf v.2 (meshes m)))], A.flat ++ [(v.2, idx)]⟩
  | _ => A

/-- build, accel_embree.cpp:80-125, given what the traversal visited. -/
def Embree.build (old : Embree) (nodes : List (Scene.Node (Aff ℚ))) (meshes : Meshes) (out : List (Int × Aff ℚ)) : Embree := out.foldl (Embree.step nodes meshes) old.fresh

/-- intersect after the library answered, accel_embree.cpp:150-163. -/
def Embree.result (A : Embree) : Option LibHit → Out (Option AHit)
  | none => .ret none
  | some h =>
    match A.flat[h.geom]? with
    | none => .throw
    | some (M, prim) => .ret (some ⟨h.t, h.u, h.v, M, prim, h.prim⟩)

/-! ### accel::nanort -/

/-- The members, accel_nanort.cpp:29-33; vs_ is kept in groups of three numbers, as every insertion adds nine. -/
structure Nano where
  vs : List (V3 ℚ)
  fs : List ℕ
  faces : List (ℕ × ℕ)
  flat : List (Aff ℚ × Int)

/-- The clear calls, accel_nanort.cpp:39-42. -/
def Nano.fresh (_old : Nano) : Nano := ⟨[], [], [], []⟩

/-- The callback for one face, accel_nanort.cpp:56-64. -/
def Nano.face (M : Aff ℚ) (fn : ℕ) (A : Nano) (q : (V3 ℚ × V3 ℚ × V3 ℚ) × ℕ) : Nano :=
  let s := A.fs.length
  ⟨A.vs ++ [M.app q.1.1, M.app q.1.2.1, M.app q.1.2.2], A.fs ++ [s, s + 1, s + 2], A.faces ++ [(fn, q.2)], A.flat⟩

/-- The callback of accel_nanort.cpp:43-65 for one visited node. -/
def Nano.step (nodes : List (Scene.Node (Aff ℚ))) (meshes : Meshes) (A : Nano) (v : Int × Aff ℚ) : Nano :=
  match Scene.at? nodes v.1 with
  | some (.prim idx p) =>
    match p.mesh with
    | none => A
    | some m => (meshes m).zipIdx.foldl (Nano.face v.2 A.flat.length) { A with flat := A.flat ++ [(v.2, idx)] }
  | _ => A

/-- build, accel_nanort.cpp:36-73, given what the traversal visited. -/
def Nano.build (old : Nano) (nodes : List (Scene.Node (Aff ℚ))) (meshes : Meshes) (out : List (Int × Aff ℚ)) : Nano := out.foldl (Nano.step nodes meshes) old.fresh

/-- nanort::TriangleMesh and TriangleIntersector over vs_ and fs_, accel_nanort.cpp:70-72,88: triangle k has the vertices fs[3k], fs[3k+1], fs[3k+2]. -/
def Nano.buf (A : Nano) : Buf := ⟨fun i => A.vs[i]?, fun k => do return (← A.fs[3 * k]?, ← A.fs[3 * k + 1]?, ← A.fs[3 * k + 2]?)⟩

/-- intersect after the library answered, accel_nanort.cpp:90-96. -/
def Nano.result (A : Nano) : Option LibHit → Out (Option AHit)
  | none => .ret none
  | some h =>
    match A.faces[h.prim]? with
    | none => .throw
    | some (fn, face) =>
      match A.flat[fn]? with
      | none => .throw
      | some (M, prim) => .ret (some ⟨h.t, h.u, h.v, M, prim, face⟩)

/-! ### accel::embreeinstanced -/

section
variable {Mat : Type}

/-- FlattenedSceneNode, accel_embree_instanced.cpp:21-27: `type` is the constructor. -/
inductive FNode (Mat : Type)
  | prim (index : ℕ) (M : Mat) (node : Int)
  | inst (index : ℕ) (M : Mat) (node : Int) (scene : ℕ)

/-- FlattenedSceneNode::index, accel_embree_instanced.cpp:23. -/
def FNode.index : FNode Mat → ℕ
  | .prim k _ _ => k
  | .inst k _ _ _ => k

/-- global_transform, accel_embree_instanced.cpp:24. -/
def FNode.M : FNode Mat → Mat
  | .prim _ M _ => M
  | .inst _ M _ _ => M

/-- node_index, accel_embree_instanced.cpp:25. -/
def FNode.node : FNode Mat → Int
  | .prim _ _ j => j
  | .inst _ _ j _ => j

/-- flattened_scene_index, accel_embree_instanced.cpp:26: zero in primitives, whose initializer does not mention it (102-107). -/
def FNode.scene : FNode Mat → ℕ
  | .prim _ _ _ => 0
  | .inst _ _ _ c => c

/-- flattened_scenes_ and node_to_flattened_scene_map, accel_embree_instanced.cpp:41,94. -/
structure FSt (Mat : Type) where
  scenes : List (List (FNode Mat))
  map : Int → Option ℕ

/-- How the flattening ends, accel_embree_instanced.cpp:94-165. -/
inductive IRes (Mat : Type)
  | done (st : FSt Mat)
  | throw            -- std::out_of_range
  | deep             -- still running at recursion depth `fuel`

/-- push_back on flattened_scenes_.at(fs), with the next index: accel_embree_instanced.cpp:100-107, 139-147. -/
def pushNode (st : FSt Mat) (fs : ℕ) (mk : ℕ → FNode Mat) : IRes Mat :=
  match st.scenes[fs]? with
  | none => .throw
  | some l => .done { st with scenes := st.scenes.set fs (l ++ [mk l.length]) }

/-- The loop over the children, accel_embree_instanced.cpp:153-155. -/
def seqI (f : Int → FSt Mat → IRes Mat) : List Int → FSt Mat → IRes Mat
  | [], st => .done st
  | c :: cs, st => match f c st with
    | .done st' => seqI f cs st'
    | r => r

/-- visit_scene_node, accel_embree_instanced.cpp:96-163, called through Scene::visit_node (scene.cpp:232-234), with the recursion depth bounded by `fuel`. -/
def ivisit [Mul Mat] [One Mat] (nodes : List (Scene.Node Mat)) : ℕ → Int → Mat → ℕ → Bool → FSt Mat → IRes Mat
  | 0, _, _, _, _, _ => .deep
  | fuel + 1, i, g, fs, ign, st =>
    match Scene.at? nodes i with
    | none => .throw
    | some (.prim idx _) => pushNode st fs (fun k => .prim k g idx)
    | some (.group idx ch instanced tr) =>
      let M := match tr with
        | some t => g * t
        | none => g
      if !ign && instanced then
        match st.map idx with
        | some c => pushNode st fs (fun k => .inst k g idx c)
        | none =>
          let c := st.scenes.length
          match ivisit nodes fuel idx 1 c true ⟨st.scenes ++ [[]], fun k => if k = idx then some c else st.map k⟩ with
          | .done st' => pushNode st' fs (fun k => .inst k g idx c)
          | r => r
      else seqI (fun c st => ivisit nodes fuel c M fs ign st) ch st

/-- accel_embree_instanced.cpp:94-165. -/
def iflatten [Mul Mat] [One Mat] (nodes : List (Scene.Node Mat)) (fuel : ℕ) : IRes Mat := ivisit nodes fuel 0 1 0 false ⟨[[]], fun _ => none⟩
end

/-- The loop body for one flattened node of scene number i, accel_embree_instanced.cpp:183-228; `built` are the library scenes created so far. None: a failed assertion (188, 217) or an index out of range. -/
def attach (nodes : List (Scene.Node (Aff ℚ))) (meshes : Meshes) (built : ℕ → Option (List (ℕ × Geom))) (i : ℕ) : FNode (Aff ℚ) → Option (List (ℕ × Geom))
  | .prim k M j =>
    match Scene.at? nodes j with
    | some (.prim _ p) =>
      match p.mesh with
      | none => some []
      | some m => some [(k, .mesh (meshBuf M (meshes m)))]
    | _ => none
  | .inst k M _ c => if i ≠ 0 then none else (built c).map (fun sub => [(k, .inst M sub)])

/-- One library scene, accel_embree_instanced.cpp:174-231. -/
def buildScene (nodes : List (Scene.Node (Aff ℚ))) (meshes : Meshes) (built : ℕ → Option (List (ℕ × Geom))) (i : ℕ) (l : List (FNode (Aff ℚ))) : Option (List (ℕ × Geom)) :=
  (l.mapM (attach nodes meshes built i)).map List.flatten

/-- The loop over the flattened scenes from the last to the first, accel_embree_instanced.cpp:172-232: the library scenes created once the scenes i, i+1, … are done. -/
def buildFrom (nodes : List (Scene.Node (Aff ℚ))) (meshes : Meshes) (scenes : List (List (FNode (Aff ℚ)))) : ℕ → Option (ℕ → Option (List (ℕ × Geom)))
  | 0 => some (fun _ => none)
  | n + 1 =>
    -- the scene with index scenes.length - (n + 1)
    (buildFrom nodes meshes scenes n).bind fun built =>
      (scenes[scenes.length - (n + 1)]?).bind fun l =>
        (buildScene nodes meshes built (scenes.length - (n + 1)) l).map fun s => upd built (scenes.length - (n + 1)) s

/-- The members, accel_embree_instanced.cpp:37-41. -/
structure Inst where
  scene : List (ℕ × Geom)
  scenes : List (List (FNode (Aff ℚ)))

/-- build, accel_embree_instanced.cpp:84-236, given the flattened scenes. Reset drops whatever was built before. -/
def Inst.build (_old : Inst) (nodes : List (Scene.Node (Aff ℚ))) (meshes : Meshes) (scenes : List (List (FNode (Aff ℚ)))) : Option Inst :=
  (buildFrom nodes meshes scenes scenes.length).bind fun built => (built 0).map fun s => ⟨s, scenes⟩

/-- intersect after the library answered, accel_embree_instanced.cpp:265-296. -/
def Inst.result [Mul (Aff ℚ)] (A : Inst) : Option LibHit → Out (Option AHit)
  | none => .ret none
  | some h =>
    match h.inst with
    | some i =>
      match (A.scenes[0]?).bind (·[i]?) with
      | none => .throw
      | some fn1 =>
        match (A.scenes[fn1.scene]?).bind (·[h.geom]?) with
        | none => .throw
        | some fn2 => .ret (some ⟨h.t, h.u, h.v, fn1.M * fn2.M, fn2.node, h.prim⟩)
    | none =>
      match (A.scenes[0]?).bind (·[h.geom]?) with
      | none => .throw
      | some fn => .ret (some ⟨h.t, h.u, h.v, fn.M, fn.node, h.prim⟩)

end LM.Accel
