import Mathlib.Algebra.Group.Defs
import Mathlib.Algebra.Order.Field.Basic
import Mathlib.Algebra.Order.Floor.Ring
/-
  Scene graph: src/scene.cpp, include/lm/scenenode.h, include/lm/scene.h.
  Simplifications: assets are identities (ℕ), null pointers are none; the lookup of an asset by locator and the dynamic_cast have already been done
  (their result is the argument). Mat4 is an arbitrary type with multiplication. Logging is dropped except that a refused call is visible in the result.
-/
namespace LM.Scene

/-- SceneNode::Primitive, scenenode.h:69-82. -/
structure Prim where
  mesh : Option ℕ
  material : Option ℕ
  light : Option ℕ
  camera : Option ℕ
  medium : Option ℕ
deriving DecidableEq, Repr

/-- SceneNode, scenenode.h:62-148: `type` is the constructor. -/
inductive Node (Mat : Type)
  | prim (index : Int) (p : Prim)
  | group (index : Int) (children : List Int) (instanced : Bool) (tr : Option Mat)
deriving DecidableEq, Repr

variable {Mat : Type}

/-- SceneNode::index, scenenode.h:62-148. -/
def Node.index : Node Mat → Int
  | .prim i _ => i
  | .group i _ _ _ => i

/-- Scene_, scene.cpp:22-28 (accel_ is left out). -/
structure St (Mat : Type) where
  nodes : List (Node Mat)
  camera : Option Int
  lights : List (Mat × Int)
  lightMap : Int → Option ℕ
  envLight : Option Int
  medium : Option Int

/-- reset, scene.cpp:54-62; also the state after construct. -/
def reset : St Mat := ⟨[.group 0 [] false none], none, [], fun _ => none, none, none⟩

/-- What a call returns (scene.cpp:54-214). -/
inductive Res
  | index (i : Int)
  | unit
  | refused      -- LM_ERROR and return
  | throw

/-- create_primitive_node, scene.cpp:72-129. `isEnv` is Light::is_env. -/
def createPrimitive (isEnv : ℕ → Bool) (st : St Mat) (p : Prim) : St Mat × Res :=
  let index : Int := st.nodes.length
  if p.mesh = none ∧ p.material = none ∧ p.light = none ∧ p.camera = none ∧ p.medium = none then (st, .throw)
  else if p.camera.isSome ∧ p.light.isSome then (st, .throw)
  else if (p.mesh = none ∧ p.material.isSome) ∨ (p.mesh.isSome ∧ p.material = none) then (st, .throw)
  else
    let st : St Mat := if p.camera.isSome then { st with camera := some index } else st
    if p.light.any isEnv ∧ st.envLight.isSome then (st, .throw)
    else
      let st : St Mat := if p.light.any isEnv then { st with envLight := some index } else st
      let st : St Mat := if p.medium.isSome then { st with medium := some index } else st
      ({ st with nodes := st.nodes ++ [.prim index p] }, .index index)

/-- create_group_node, scene.cpp:131-135. -/
def createGroup (st : St Mat) (tr : Mat) : St Mat × Res :=
  ({ st with nodes := st.nodes ++ [.group st.nodes.length [] false (some tr)] }, .index st.nodes.length)

/-- create_instance_group_node, scene.cpp:137-141. -/
def createInstanceGroup (st : St Mat) : St Mat × Res :=
  ({ st with nodes := st.nodes ++ [.group st.nodes.length [] true none] }, .index st.nodes.length)

/-- add_child, scene.cpp:143-156. The child is not checked. -/
def addChild (st : St Mat) (parent child : Int) : St Mat × Res :=
  if parent < 0 ∨ parent ≥ st.nodes.length then (st, .refused)
  else match st.nodes[parent.toNat]? with
    | some (.group i ch b tr) => ({ st with nodes := st.nodes.set parent.toNat (.group i (ch ++ [child]) b tr) }, .unit)
    | _ => (st, .refused)

/-- The callback of add_child_from_model, scene.cpp:169-179, for one (mesh, material, light). -/
def modelPrimitive (parent : Int) (st : St Mat) (t : Option ℕ × Option ℕ × Option ℕ) : St Mat :=
  let index : Int := st.nodes.length
  let st : St Mat := { st with nodes := st.nodes ++ [.prim index ⟨t.1, t.2.1, t.2.2, none, none⟩] }
  (addChild st parent index).1

/-- add_child_from_model, scene.cpp:158-180. `model` is what create_primitives enumerates, none: no such model. -/
def addChildFromModel (st : St Mat) (parent : Int) (model : Option (List (Option ℕ × Option ℕ × Option ℕ))) : St Mat × Res :=
  if parent < 0 ∨ parent ≥ st.nodes.length then (st, .refused)
  else match model with
    | none => (st, .unit)
    | some ts => (ts.foldl (modelPrimitive parent) st, .unit)

/-- The callback of create_group_from_model, scene.cpp:194-211, for one node. -/
def modelNode (offset : Int) (st : St Mat) : Node Mat → St Mat
  | .group i ch b tr => { st with nodes := st.nodes ++ [.group (i + offset) (ch.map (· + offset)) b tr] }
  | .prim i p =>
    let st : St Mat := { st with nodes := st.nodes ++ [.prim (i + offset) p] }
    if p.camera.isSome then { st with camera := some (i + offset) } else st

/-- create_group_from_model, scene.cpp:182-214. `model` is what foreach_node enumerates. -/
def createGroupFromModel (st : St Mat) (model : Option (List (Node Mat))) : St Mat × Res :=
  match model with
  | none => (st, .index (-1))
  | some ns => (ns.foldl (modelNode st.nodes.length) st, .index st.nodes.length)

/-! ### Traversal -/

/-- Result of a traversal: the callbacks made so far and how it ended (scene.cpp:158-214). -/
inductive Trav (Mat : Type)
  | done (out : List (Int × Mat))
  | throw            -- std::out_of_range from nodes_.at
  | deep             -- still running at recursion depth `fuel` (an unbounded recursion exhausts the stack)
deriving DecidableEq

/-- nodes_.at(index) for an int argument (scene.cpp:131-230). -/
def at? (nodes : List (Node Mat)) (i : Int) : Option (Node Mat) := if i < 0 then none else nodes[i.toNat]?

/-- Running `f` over the children in order, stopping at the first that does not return (scene.cpp:158-214). -/
def seqT (f : Int → Trav Mat) : List Int → Trav Mat
  | [] => .done []
  | c :: cs => match f c with
    | .done a => match seqT f cs with
      | .done b => .done (a ++ b)
      | r => r
    | r => r

/-- visit, scene.cpp:217-228, with the recursion depth bounded by `fuel`. The callback's view of a node is its position and the global transform. -/
def visit [Mul Mat] (nodes : List (Node Mat)) : ℕ → Int → Mat → Trav Mat
  | 0, _, _ => .deep
  | fuel + 1, i, g =>
    match at? nodes i with
    | none => .throw
    | some (.prim _ _) => .done [(i, g)]
    | some (.group _ ch _ tr) =>
      let M := match tr with
        | some t => g * t
        | none => g
      match seqT (fun c => visit nodes fuel c M) ch with
      | .done out => .done ((i, g) :: out)
      | r => r

/-- traverse_primitive_nodes, scene.cpp:216-230. -/
def traverse [Mul Mat] [One Mat] (nodes : List (Node Mat)) (fuel : ℕ) : Trav Mat := visit nodes fuel 0 1

/-! ### Light tables -/

/-- The callback of build, scene.cpp:281-286. -/
def lightStep (nodes : List (Node Mat)) (acc : (Int → Option ℕ) × List (Mat × Int)) (v : Int × Mat) : (Int → Option ℕ) × List (Mat × Int) :=
  match at? nodes v.1 with
  | some (.prim idx p) =>
    if p.light.isSome then (fun k => if k = idx then some acc.2.length else acc.1 k, acc.2 ++ [(v.2, idx)]) else acc
  | _ => acc

/-- build, scene.cpp:274-286 (light tables only), given what the traversal visited. -/
def buildLights (st : St Mat) (out : List (Int × Mat)) : St Mat :=
  let r := out.foldl (lightStep st.nodes) (fun _ => none, [])
  { st with lightMap := r.1, lights := r.2 }

/-- light_primitive_index_at, scene.cpp:389-391. -/
def lightPrimitiveIndexAt (st : St Mat) (i : Int) : Option (Mat × Int) := if i < 0 then none else st.lights[i.toNat]?

/-- light_index_at, scene.cpp:393-395. -/
def lightIndexAt (st : St Mat) (node : Int) : Option ℕ := st.lightMap node

/-- The API calls. `build` carries the visits the traversal made before it returned (or threw); any list is allowed here (scene.cpp:54-286). -/
inductive Op (Mat : Type)
  | createPrimitive (p : Prim)
  | createGroup (tr : Mat)
  | createInstanceGroup
  | addChild (parent child : Int)
  | addChildFromModel (parent : Int) (model : Option (List (Option ℕ × Option ℕ × Option ℕ)))
  | createGroupFromModel (model : Option (List (Node Mat)))
  | build (out : List (Int × Mat))
  | reset

/-- One call, scene.cpp:54-286. -/
def step (isEnv : ℕ → Bool) (st : St Mat) : Op Mat → St Mat × Res
  | .createPrimitive p => createPrimitive isEnv st p
  | .createGroup tr => createGroup st tr
  | .createInstanceGroup => createInstanceGroup st
  | .addChild a b => addChild st a b
  | .addChildFromModel a m => addChildFromModel st a m
  | .createGroupFromModel m => createGroupFromModel st m
  | .build out => (buildLights st out, .unit)
  | .reset => (reset, .unit)

/-- A history of calls, oldest first (scene.cpp:54-286). -/
def run (isEnv : ℕ → Bool) (st : St Mat) (ops : List (Op Mat)) : St Mat := ops.foldl (fun st op => (step isEnv st op).1) st

/-- add_transformed_primitive without model, scene.h:147-156: a throwing create_primitive_node leaves the scene with the group already created. -/
def addTransformedPrimitive (isEnv : ℕ → Bool) (st : St Mat) (tr : Mat) (p : Prim) : St Mat × Res :=
  let g := createGroup st tr
  match g.2 with
  | .index t =>
    let c := createPrimitive isEnv g.1 p
    match c.2 with
    | .index i =>
      let a := addChild c.1 t i
      addChild a.1 0 t
    | r => (c.1, r)
  | r => (g.1, r)

/-! ### Light selection, scene.cpp:374-387 -/

/-- int(x): truncation towards zero (used at scene.cpp:364-391). -/
def trunc {K : Type} [Field K] [LinearOrder K] [FloorRing K] (x : K) : Int := if x < 0 then ⌈x⌉ else ⌊x⌋

/-- sample_light_selection, scene.cpp:374-382; the probability is none for 1 / 0 = +inf. glm::clamp(x, a, b) = min(max(x, a), b). -/
def sampleLightSelection {K : Type} [Field K] [LinearOrder K] [FloorRing K] (n : ℕ) (u : K) : Int × Option K :=
  (min (max (trunc (u * n)) 0) ((n : Int) - 1), if n = 0 then none else some (1 / (n : K)))

/-- pdf_light_selection, scene.cpp:384-387. -/
def pdfLightSelection {K : Type} [Field K] (n : ℕ) (_i : Int) : Option K := if n = 0 then none else some (1 / (n : K))

end LM.Scene
