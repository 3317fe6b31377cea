import Verif.Model.Obj
/-
  The rest of OBJLoaderContext_TinyOBJLoader::load: plugin/objloader_tinyobjloader/objloader_tinyobjloader.cpp:21-147, from what tinyobj::LoadObj returns to the calls of the callbacks, which return true.
  The parser library itself is not modelled: what it returns is an argument. Both sides use double (objloader_tinyobjloader.cpp:14), so memcpy copies numbers one by one.
-/
namespace LM.Obj
open LM

/-- The fields of tinyobj::material_t that are read, objloader_tinyobjloader.cpp:72-80. -/
structure TinyMat (K : Type) where
  name : CStr
  illum : Int
  diffuse : V3 K
  specular : V3 K
  emission : V3 K
  diffuseTexname : CStr
  ior : K
  shininess : K
  anisotropy : K

/-- tinyobj::shape_t::mesh as it is read, objloader_tinyobjloader.cpp:110-135. -/
structure TinyShape where
  numFaceVertices : List Nat
  materialIds : List Int
  indices : List FaceIndex

/-- What LoadObj returns, objloader_tinyobjloader.cpp:30-38. -/
structure TinyParsed (K : Type) where
  ret : Bool
  vertices : List K
  normals : List K
  texcoords : List K
  shapes : List TinyShape
  materials : List (TinyMat K)

/-- What happens to be in the members of `MTLMatParams p;` that are never assigned: objloader_tinyobjloader.cpp:94-97 with include/lm/objloader.h:55-64, which initialises none of them. The strings are empty. -/
structure Junk (K : Type) where
  Ks : V3 K
  Ke : V3 K
  Ni : K
  Ns : K
  an : K

section
variable {K : Type}

/-- memcpy of numbers into the members x, y, z of size / 3 vectors, objloader_tinyobjloader.cpp:51-52, 56-57. none: numbers are left over and are written behind the vectors. -/
def copy3 : List K → Option (List (V3 K))
  | [] => some []
  | x :: y :: z :: r => (copy3 r).map (⟨x, y, z⟩ :: ·)
  | _ => none

/-- The same for size / 2 vectors of two numbers, objloader_tinyobjloader.cpp:62-63. -/
def copy2 : List K → Option (List (K × K))
  | [] => some []
  | x :: y :: r => (copy2 r).map ((x, y) :: ·)
  | _ => none

/-- An undefined step of the program (objloader_tinyobjloader.cpp:51-140). -/
def orUb {α : Type} : Option α → Except Err α
  | some a => .ok a
  | none => .error .ub

/-- Copy vertex data, objloader_tinyobjloader.cpp:49-66. There is no check for `vertices`: with none, `geo.ps[0]` and `attrib.vertices[0]` do not exist. geo was empty before (model_wavefrontobj.cpp:76). -/
def tinyGeo (a : TinyParsed K) : Except Err (Geo K) := do
  if a.vertices.isEmpty then throw .ub
  let ps ← orUb (copy3 a.vertices)
  let ns ← orUb (copy3 a.normals)
  let ts ← orUb (copy2 a.texcoords)
  pure { ps := ps, ns := ns, ts := ts }

/-- Convert to our type, objloader_tinyobjloader.cpp:71-80. -/
def tinyMat (m : TinyMat K) : Mat K :=
  { name := m.name, illum := m.illum, Kd := m.diffuse, Ks := m.specular, Ke := m.emission, mapKd := m.diffuseTexname, Ni := m.ior, Ns := m.shininess, an := m.anisotropy }

variable [OfNat K 1]

/-- The default material, objloader_tinyobjloader.cpp:93-97: only name, illum and Kd are assigned. -/
def tinyDefault (j : Junk K) : Mat K :=
  { name := "default".toList, illum := -1, Kd := ⟨1, 1, 1⟩, Ks := j.Ks, Ke := j.Ke, mapKd := [], Ni := j.Ni, Ns := j.Ns, an := j.an }

/-- our_mat_params, objloader_tinyobjloader.cpp:69-102; also the calls of process_material, in order. -/
def tinyMats (j : Junk K) (a : TinyParsed K) : List (Mat K) :=
  if a.materials.isEmpty then [tinyDefault j] else a.materials.map tinyMat

omit [OfNat K 1]

/-- `process_mesh(fs, our_mat_params[prev_material_id < 0 ? 0 : prev_material_id])`, objloader_tinyobjloader.cpp:123, 139. -/
def tinyCall (ms : List (Mat K)) (calls : List (List FaceIndex × Mat K)) (fs : List FaceIndex) (prev : Int) : Except Err (List (List FaceIndex × Mat K)) := do
  let m ← orUb (ms[(if prev < 0 then 0 else prev).toNat]?)
  pure (calls ++ [(fs, m)])

/-- The locals of the loop over the faces: fs, prev_material_id, and the calls of process_mesh so far (objloader_tinyobjloader.cpp:105-137). -/
abbrev TinyLoop (K : Type) := List FaceIndex × Int × List (List FaceIndex × Mat K)

/-- One iteration of the loop over the faces, objloader_tinyobjloader.cpp:112-137. -/
def tinyFaceStep (ms : List (Mat K)) (sh : TinyShape) (st : TinyLoop K) (fi : Nat) : Except Err (TinyLoop K) := do
  let n ← orUb (sh.numFaceVertices[fi]?)
  if n ≠ 3 then throw .fail
  let curr ← orUb (sh.materialIds[fi]?)
  if curr ≠ st.2.1 then
    let calls ← tinyCall ms st.2.2 st.1 st.2.1
    pure ([], curr, calls)
  else
    let i1 ← orUb (sh.indices[fi * 3]?)
    let i2 ← orUb (sh.indices[fi * 3 + 1]?)
    let i3 ← orUb (sh.indices[fi * 3 + 2]?)
    pure (st.1 ++ [i1, i2, i3], st.2.1, st.2.2)

/-- One shape, objloader_tinyobjloader.cpp:106-143. -/
def tinyShape (ms : List (Mat K)) (calls : List (List FaceIndex × Mat K)) (sh : TinyShape) : Except Err (List (List FaceIndex × Mat K)) := do
  let id0 ← orUb (sh.materialIds[0]?)
  let st ← (List.range sh.numFaceVertices.length).foldlM (tinyFaceStep ms sh) ([], id0, calls)
  if st.1.isEmpty then pure st.2.2 else tinyCall ms st.2.2 st.1 st.2.1

variable [OfNat K 1]

/-- load, objloader_tinyobjloader.cpp:22-146. -/
def tinyLoad (j : Junk K) (a : TinyParsed K) : Except Err (Loaded K) := do
  if ! a.ret then throw .fail
  let geo ← tinyGeo a
  let ms := tinyMats j a
  let meshes ← a.shapes.foldlM (tinyShape ms) []
  pure { geo := geo, materials := ms, meshes := meshes }

end

end LM.Obj
