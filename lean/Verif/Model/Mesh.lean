import Verif.Model.Obj
import Verif.Model.Light
/-
  Triangle meshes: src/mesh/mesh_raw.cpp, src/mesh/mesh_wavefrontobj.cpp and Mesh_WavefrontObjRef in src/model/model_wavefrontobj.cpp:261-324 (the last two differ only in who owns the geometry).
  Reading outside a vector is undefined behaviour: none. Float is ℝ.
-/
namespace LM.Mesh
open LM LM.Obj LM.Material LM.MathF

/-- v[i] with an int index: undefined outside the vector (used at mesh_raw.cpp:50-101). -/
def at' {α : Type} (l : List α) (i : Int) : Option α := if i < 0 then none else l[i.toNat]?

/-- Mesh::Point, include/lm/mesh.h:34-38. -/
structure Point where
  p : V3 ℝ
  n : V3 ℝ
  t : ℝ × ℝ

/-- Mesh::Tri, mesh.h:47-51. -/
structure Tri3 where
  p1 : Point
  p2 : Point
  p3 : Point

/-- Mesh::InterpolatedPoint, mesh.h:83-88. -/
structure Interp where
  p : V3 ℝ
  n : V3 ℝ
  gn : V3 ℝ
  t : ℝ × ℝ

/-- The stored data of a mesh: geo_ / ps_, ns_, ts_ and fs_ (mesh_raw.cpp:38-47, mesh_wavefrontobj.cpp:24-48). -/
structure Mesh where
  geo : Geo ℝ
  fs : List FaceIndex

/-- mix_barycentric on texture coordinates, math.h:573-575. -/
def mix2 (a b c : ℝ × ℝ) (u v : ℝ) : ℝ × ℝ := ((1 - u - v) * a.1 + u * b.1 + v * c.1, (1 - u - v) * a.2 + u * b.2 + v * c.2)

/-- num_triangles, mesh_raw.cpp:99-101, mesh_wavefrontobj.cpp:91-93, model_wavefrontobj.cpp:321-323. -/
def numTriangles (m : Mesh) : Nat := m.fs.length / 3

/-- fs_[3*face], fs_[3*face+1], fs_[3*face+2] (mesh_raw.cpp:75-97). -/
def corners3 (m : Mesh) (face : Nat) : Option (FaceIndex × FaceIndex × FaceIndex) := do
  let a ← m.fs[3 * face]?
  let b ← m.fs[3 * face + 1]?
  let c ← m.fs[3 * face + 2]?
  return (a, b, c)

/-- One vertex in triangle_at of mesh::raw, mesh_raw.cpp:80-82: every attribute is read. -/
def rawPoint (g : Geo ℝ) (f : FaceIndex) : Option Point := do
  let p ← at' g.ps f.p
  let n ← at' g.ns f.n
  let t ← at' g.ts f.t
  return ⟨p, n, t⟩

/-- `i < 0 ? d : v[i]`, mesh_wavefrontobj.cpp:61-63. -/
def attr {α : Type} (d : α) (l : List α) (i : Int) : Option α := if i < 0 then some d else at' l i

/-- One vertex in triangle_at of the OBJ meshes, mesh_wavefrontobj.cpp:61-63: missing attributes are zero. -/
def objPoint (g : Geo ℝ) (f : FaceIndex) : Option Point := do
  let p ← at' g.ps f.p
  let n ← attr 0 g.ns f.n
  let t ← attr (0, 0) g.ts f.t
  return ⟨p, n, t⟩

/-- triangle_at, mesh_raw.cpp:75-84, mesh_wavefrontobj.cpp:56-65, model_wavefrontobj.cpp:286-296. -/
def triangleAt (pt : Geo ℝ → FaceIndex → Option Point) (m : Mesh) (face : Nat) : Option Tri3 := do
  let (a, b, c) ← corners3 m face
  let p1 ← pt m.geo a
  let p2 ← pt m.geo b
  let p3 ← pt m.geo c
  return ⟨p1, p2, p3⟩

/-- foreach_triangle, mesh_raw.cpp:69-73, mesh_wavefrontobj.cpp:50-54, model_wavefrontobj.cpp:280-284: the calls made, in order. -/
def foreachTriangle (pt : Geo ℝ → FaceIndex → Option Point) (m : Mesh) : Option (List (Nat × Tri3)) :=
  (List.range (numTriangles m)).mapM (fun fi => (triangleAt pt m fi).map (fun t => (fi, t)))

/-- surface_point of mesh::raw, mesh_raw.cpp:86-97. -/
noncomputable def rawSurfacePoint (m : Mesh) (face : Nat) (u v : ℝ) : Option Interp := do
  let (a, b, c) ← corners3 m face
  let p1 ← at' m.geo.ps a.p
  let p2 ← at' m.geo.ps b.p
  let p3 ← at' m.geo.ps c.p
  let n1 ← at' m.geo.ns a.n
  let n2 ← at' m.geo.ns b.n
  let n3 ← at' m.geo.ns c.n
  let n ← Material.normalize (mixBarycentric n1 n2 n3 u v)
  let gn ← Light.geometryNormal ⟨p1, p2, p3⟩
  let t1 ← at' m.geo.ts a.t
  let t2 ← at' m.geo.ts b.t
  let t3 ← at' m.geo.ts c.t
  return ⟨mixBarycentric p1 p2 p3 u v, n, gn, mix2 t1 t2 t3 u v⟩

/-- The normal in surface_point of the OBJ meshes, mesh_wavefrontobj.cpp:78-80: only the first corner is tested. -/
noncomputable def objNormal (g : Geo ℝ) (a b c : FaceIndex) (p1 p2 p3 : V3 ℝ) (u v : ℝ) : Option (V3 ℝ) :=
  if a.n < 0 then Light.geometryNormal ⟨p1, p2, p3⟩
  else do
    let n1 ← at' g.ns a.n
    let n2 ← at' g.ns b.n
    let n3 ← at' g.ns c.n
    Material.normalize (mixBarycentric n1 n2 n3 u v)

/-- The texture coordinates in surface_point of the OBJ meshes, mesh_wavefrontobj.cpp:84-85. -/
def objTex (g : Geo ℝ) (a b c : FaceIndex) (u v : ℝ) : Option (ℝ × ℝ) :=
  if a.t < 0 then some (0, 0)
  else do
    let t1 ← at' g.ts a.t
    let t2 ← at' g.ts b.t
    let t3 ← at' g.ts c.t
    return mix2 t1 t2 t3 u v

/-- surface_point of the OBJ meshes, mesh_wavefrontobj.cpp:67-89, model_wavefrontobj.cpp:298-319. -/
noncomputable def objSurfacePoint (m : Mesh) (face : Nat) (u v : ℝ) : Option Interp := do
  let (a, b, c) ← corners3 m face
  let p1 ← at' m.geo.ps a.p
  let p2 ← at' m.geo.ps b.p
  let p3 ← at' m.geo.ps c.p
  let n ← objNormal m.geo a b c p1 p2 p3 u v
  let gn ← Light.geometryNormal ⟨p1, p2, p3⟩
  let t ← objTex m.geo a b c u v
  return ⟨mixBarycentric p1 p2 p3 u v, n, gn, t⟩

/-- The loops over ps and ns of mesh::raw's construct, mesh_raw.cpp:51-58: an incomplete last vector is undefined behaviour. -/
def triples : List ℝ → Option (List (V3 ℝ))
  | [] => some []
  | x :: y :: z :: l => (triples l).map (fun r => ⟨x, y, z⟩ :: r)
  | _ => none

/-- The loop over ts, mesh_raw.cpp:59-62. -/
def pairs : List ℝ → Option (List (ℝ × ℝ))
  | [] => some []
  | x :: y :: l => (pairs l).map (fun r => (x, y) :: r)
  | _ => none

/-- The loop over fs, mesh_raw.cpp:63-67: as many faces as fs["p"] has entries; reading past the end of fs["t"] or fs["n"] is undefined behaviour. -/
def indexList (p t n : List Int) : Option (List FaceIndex) :=
  (List.range p.length).mapM (fun i => do return ⟨← p[i]?, ← t[i]?, ← n[i]?⟩)

/-- construct of mesh::raw, mesh_raw.cpp:50-67; the property holds arrays of numbers. -/
def rawConstruct (ps ns ts : List ℝ) (fp ft fn : List Int) : Option Mesh := do
  let p ← triples ps
  let n ← triples ns
  let t ← pairs ts
  let f ← indexList fp ft fn
  return ⟨⟨p, n, t⟩, f⟩

/-- construct of mesh::wavefrontobj, mesh_wavefrontobj.cpp:30-48: all faces the loader delivers, in order, whatever their material. -/
def objConstruct (L : Loaded ℝ) : Mesh := ⟨L.geo, (L.meshes.map (·.1)).flatten⟩

/-- The parts of pbrt::TriangleMesh that Mesh_PBRT reads, model_pbrt.cpp:41: one index per corner is shared by all attributes. Conversion from float to Float is exact. -/
structure PbrtMesh where
  vertex : List (V3 ℝ)
  normal : List (V3 ℝ)
  texcoord : List (ℝ × ℝ)
  index : List (Int × Int × Int)

/-- num_triangles of mesh::pbrt, model_pbrt.cpp:102-104. -/
def pbrtNumTriangles (m : PbrtMesh) : Nat := m.index.length

/-- `v.empty() ? zero : v[i]`, model_pbrt.cpp:59-64. -/
def orEmpty {α : Type} (d : α) (l : List α) (i : Int) : Option α := if l.isEmpty then some d else at' l i

/-- pointByFace in triangle_at of mesh::pbrt, model_pbrt.cpp:56-66. -/
def pbrtPoint (m : PbrtMesh) (i : Int) : Option Point := do
  let p ← at' m.vertex i
  let n ← orEmpty 0 m.normal i
  let t ← orEmpty (0, 0) m.texcoord i
  return ⟨p, n, t⟩

/-- triangle_at of mesh::pbrt, model_pbrt.cpp:55-73. -/
def pbrtTriangleAt (m : PbrtMesh) (face : Nat) : Option Tri3 := do
  let (x, y, z) ← m.index[face]?
  let p1 ← pbrtPoint m x
  let p2 ← pbrtPoint m y
  let p3 ← pbrtPoint m z
  return ⟨p1, p2, p3⟩

/-- foreach_triangle of mesh::pbrt, model_pbrt.cpp:49-53: the calls made, in order. -/
def pbrtForeachTriangle (m : PbrtMesh) : Option (List (Nat × Tri3)) :=
  (List.range m.index.length).mapM (fun fi => (pbrtTriangleAt m fi).map (fun t => (fi, t)))

/-- The shading normal in surface_point of mesh::pbrt, model_pbrt.cpp:85-90. -/
noncomputable def pbrtNormal (m : PbrtMesh) (x y z : Int) (gn : V3 ℝ) (u v : ℝ) : Option (V3 ℝ) :=
  if m.normal.isEmpty then some gn
  else do
    let n1 ← at' m.normal x
    let n2 ← at' m.normal y
    let n3 ← at' m.normal z
    Material.normalize (mixBarycentric n1 n2 n3 u v)

/-- The texture coordinates in surface_point of mesh::pbrt, model_pbrt.cpp:92-97. -/
def pbrtTex (m : PbrtMesh) (x y z : Int) (u v : ℝ) : Option (ℝ × ℝ) :=
  if m.texcoord.isEmpty then some (0, 0)
  else do
    let t1 ← at' m.texcoord x
    let t2 ← at' m.texcoord y
    let t3 ← at' m.texcoord z
    return mix2 t1 t2 t3 u v

/-- surface_point of mesh::pbrt, model_pbrt.cpp:75-99. -/
noncomputable def pbrtSurfacePoint (m : PbrtMesh) (face : Nat) (u v : ℝ) : Option Interp := do
  let (x, y, z) ← m.index[face]?
  let p1 ← at' m.vertex x
  let p2 ← at' m.vertex y
  let p3 ← at' m.vertex z
  let gn ← Light.geometryNormal ⟨p1, p2, p3⟩
  let n ← pbrtNormal m x y z gn u v
  let t ← pbrtTex m x y z u v
  return ⟨mixBarycentric p1 p2 p3 u v, n, gn, t⟩

end LM.Mesh
