import Verif.Model.Scene
/-
  PBRT models: class Model_PBRT in plugin/model_pbrt/model_pbrt.cpp:110-250, from the object tree the parser library returns.
  pbrt::Object is shared between its instances there; here an object occurs once per instance. Transforms are an arbitrary monoid
  (pbrt::affine3f and Mat4 are not distinguished). A shape is the id of a triangle mesh, or none for another shape. The default material has id 0. Creation of assets succeeds.
-/
namespace LM.Pbrt
open LM.Scene

mutual
/-- pbrt::Object: name, shapes, instances (model_pbrt.cpp:170-234). -/
inductive Obj (Mat : Type)
  | mk (name : List Char) (shapes : List (Option ℕ)) (insts : Insts Mat)
/-- pbrt::Instance list: transform and object of each (model_pbrt.cpp:200-232). -/
inductive Insts (Mat : Type)
  | nil
  | cons (xfm : Mat) (o : Obj Mat) (rest : Insts Mat)
end

variable {Mat : Type}

/-- object->name, model_pbrt.cpp:170-234. -/
def Obj.name : Obj Mat → List Char | .mk n _ _ => n
/-- object->shapes, model_pbrt.cpp:170-234. -/
def Obj.shapes : Obj Mat → List (Option ℕ) | .mk _ s _ => s
/-- object->instances, model_pbrt.cpp:170-234. -/
def Obj.insts : Obj Mat → Insts Mat | .mk _ _ i => i

/-- nodes_ (model_pbrt.cpp:116) and the local `visited` (model_pbrt.cpp:168). -/
structure St (Mat : Type) where
  nodes : List (Node Mat)
  visited : List (List Char × ℕ)

/-- `nodes_[parent].group.children.push_back(c)`, model_pbrt.cpp:159, 195, 210. -/
def pushChild (ns : List (Node Mat)) (p : ℕ) (c : ℕ) : List (Node Mat) :=
  ns.modify p fun n => match n with
    | .group i ch b tr => .group i (ch ++ [(c : Int)]) b tr
    | n => n

/-- One shape, model_pbrt.cpp:174-196. -/
def visitShape (parent : ℕ) (ns : List (Node Mat)) : Option ℕ → List (Node Mat)
  | none => ns
  | some m => pushChild (ns ++ [.prim ns.length ⟨some m, some 0, none, none, none⟩]) parent ns.length

/-- `visited.find` (model_pbrt.cpp:217). -/
def find (v : List (List Char × ℕ)) (name : List Char) : Option ℕ := (v.find? (fun e => e.1 = name)).map (·.2)

mutual
/-- visit_object, model_pbrt.cpp:170-234. -/
def visitObj [Monoid Mat] : Obj Mat → ℕ → Mat → St Mat → St Mat
  | .mk _ shapes insts, parent, xfm, st => visitInsts insts parent xfm { st with nodes := shapes.foldl (visitShape parent) st.nodes }
/-- The loop over the instances, model_pbrt.cpp:200-232. -/
def visitInsts [Monoid Mat] : Insts Mat → ℕ → Mat → St Mat → St Mat
  | .nil, _, _, st => st
  | .cons x o rest, parent, xfm, st =>
    let t := st.nodes.length
    let ns := pushChild (st.nodes ++ [.group t [] false (some (xfm * x))]) parent t
    let st' : St Mat := match find st.visited o.name with
      | some g => { st with nodes := pushChild ns t g }
      | none =>
        let g := ns.length
        let r := visitObj o g (xfm * x) { st with nodes := ns ++ [.group g [] true (some 1)] }
        { r with visited := (o.name, g) :: r.visited }
    visitInsts rest parent xfm st'
end

/-- construct, model_pbrt.cpp:124-236; `camera`: the camera asset, if the scene has one (model_pbrt.cpp:135-160). -/
def construct [Monoid Mat] (camera : Option ℕ) (world : Obj Mat) : List (Node Mat) :=
  let ns : List (Node Mat) := [.group 0 [] false none]
  let ns : List (Node Mat) := match camera with
    | none => ns
    | some c => pushChild (ns ++ [.prim 1 ⟨none, none, none, some c, none⟩]) 0 1
  (visitObj world 0 1 ⟨ns, []⟩).nodes

end LM.Pbrt
