import Verif.Model.Obj
import Mathlib.Analysis.SpecialFunctions.Sqrt
/-
  model::wavefrontobj: src/model/model_wavefrontobj.cpp:40-250. Assets are recorded by what they are created from (comp::create itself is Model/Context.lean); creation may fail.
  File names: `stem` stands for std::filesystem::path::stem. NO_MIXTURE_MATERIAL is 0 (model_wavefrontobj.cpp:12).
-/
namespace LM.Obj
open LM

/-- A created asset with its construction arguments. Locators are the names below the model's own locator (make_loc) (model_wavefrontobj.cpp:78-225). -/
inductive Asset where
  | mesh (fs : List FaceIndex)
  | light (Ke : V3 ℝ) (mesh : CStr)
  | texture (path : CStr)
  | proxy
  | black
  | glass (Ni : ℝ)
  | mirror
  | mixture (Kd : V3 ℝ) (mapKd : Option CStr) (Ks : V3 ℝ) (ax ay : Option ℝ) (noAlphaMask : Bool)

/-- Group, model_wavefrontobj.cpp:48-57. -/
structure Group where
  mesh : Nat
  material : Nat
  light : Option Nat      -- none: -1

/-- Members of Model_WavefrontObj, model_wavefrontobj.cpp:40-58. -/
structure ObjModel where
  assets : List Asset := []
  map : List (CStr × Nat) := []
  groups : List Group := []

/-- Properties of the construction, model_wavefrontobj.cpp:121, 163. -/
structure Config where
  baseMaterial : Bool
  skipSpecular : Bool
  stem : CStr → CStr
  creates : Asset → Bool

/-- fmt::format("{}", n) (used at model_wavefrontobj.cpp:80, 98). -/
def fmtNat (n : Nat) : List Char := if h : n < 10 then [Char.ofNat ('0'.toNat + n)] else fmtNat (n / 10) ++ [Char.ofNat ('0'.toNat + n % 10)]
termination_by n
decreasing_by omega

/-- mesh_name, model_wavefrontobj.cpp:80. -/
def meshName (n : Nat) : CStr := "mesh_".toList ++ fmtNat n
/-- light_name, model_wavefrontobj.cpp:98. -/
def lightName (n : Nat) : CStr := meshName n ++ "_light".toList
/-- id, model_wavefrontobj.cpp:136. -/
def textureId (c : Config) (file : CStr) : CStr := "texture_".toList ++ c.stem file

/-- `assets_map_[name] = int(assets_.size()); assets_.push_back(asset);` (model_wavefrontobj.cpp:91-92, 107-108, 127-128, 148-149, 221-222). -/
def ObjModel.add (M : ObjModel) (name : CStr) (a : Asset) : ObjModel := { M with assets := M.assets ++ [a], map := Mats.put M.map name M.assets.length }

/-- `assets_map_[name]` as an rvalue: a missing name is inserted with value 0 (model_wavefrontobj.cpp:112). -/
def lookup (m : List (CStr × Nat)) (name : CStr) : Nat × List (CStr × Nat) :=
  match Mats.find m name with
  | some i => (i, m)
  | none => (0, Mats.put m name 0)

/-- glm::compMax(Ke) > 0, model_wavefrontobj.cpp:96. -/
def emits (Ke : V3 ℝ) : Prop := max (max Ke.x Ke.y) Ke.z > 0

open Classical in
/-- Process mesh, model_wavefrontobj.cpp:78-115. none: returns false. -/
noncomputable def addMesh (c : Config) (M : ObjModel) (fs : List FaceIndex) (m : Mat ℝ) : Option ObjModel :=
  let name := meshName M.assets.length
  let lname := lightName M.assets.length
  if ¬ c.creates (.mesh fs) then none else
  let M := M.add name (.mesh fs)
  let r : Option (ObjModel × Option Nat) :=
    if emits m.Ke then
      if ¬ c.creates (.light m.Ke name) then none
      else some (M.add lname (.light m.Ke name), some M.assets.length)
    else some (M, none)
  match r with
  | none => none
  | some (M, light) =>
    let a := lookup M.map name
    let b := lookup a.2 m.name
    some { M with map := b.2, groups := M.groups ++ [⟨a.1, b.1, light⟩] }

/-- Roughness, model_wavefrontobj.cpp:204-205, 215-216: ax = max(1e-3, r / as), ay = max(1e-3, r as) with r = 2 / (2 + Ns), as = safe_sqrt(1 - an .9). none: division by zero. -/
noncomputable def roughness (Ns an : ℝ) : Option ℝ × Option ℝ :=
  if 2 + Ns = 0 then (none, none) else
  let r := 2 / (2 + Ns)
  let as := Real.sqrt (max 0 (1 - an * 0.9))
  (if as = 0 then none else some (max (1 / 1000) (r / as)), some (max (1 / 1000) (r * as)))

/-- The material, model_wavefrontobj.cpp:160-219. -/
noncomputable def matAsset (c : Config) (m : Mat ℝ) : Asset :=
  if c.baseMaterial then .proxy
  else if m.illum = 5 ∨ m.illum = 7 then
    if c.skipSpecular then .black
    else if m.illum = 7 then .glass m.Ni
    else .mirror
  else
    let a := roughness m.Ns m.an
    .mixture m.Kd (if m.mapKd = [] then none else some (textureId c m.mapKd)) m.Ks a.1 a.2 c.skipSpecular

/-- Load texture, model_wavefrontobj.cpp:132-156. -/
def addTexture (c : Config) (M : ObjModel) (m : Mat ℝ) : Option ObjModel :=
  if m.mapKd = [] then some M else
  let id := textureId c m.mapKd
  match Mats.find M.map id with
  | some _ => some M
  | none => if c.creates (.texture m.mapKd) then some (M.add id (.texture m.mapKd)) else none

/-- Process material, model_wavefrontobj.cpp:118-225. -/
noncomputable def addMaterial (c : Config) (M : ObjModel) (m : Mat ℝ) : Option ObjModel :=
  (if c.baseMaterial then some M else addTexture c M m).bind fun M =>
  if c.creates (matAsset c m) then some (M.add m.name (matAsset c m)) else none

/-- construct, model_wavefrontobj.cpp:74-229: all materials, then all meshes (objloader_simple.cpp:144-156). none: an exception. -/
noncomputable def construct (c : Config) (L : Loaded ℝ) : Option ObjModel := do
  let M ← L.materials.foldlM (addMaterial c) {}
  L.meshes.foldlM (fun M e => addMesh c M e.1 e.2) M

/-- create_primitives, model_wavefrontobj.cpp:231-240: the triples handed to the callback; none: `at` throws. -/
def primitives (M : ObjModel) : Option (List (Asset × Asset × Option Asset)) :=
  M.groups.mapM fun g => do
    let mesh ← M.assets[g.mesh]?
    let mat ← M.assets[g.material]?
    match g.light with
    | none => pure (mesh, mat, none)
    | some l => do
      let light ← M.assets[l]?
      pure (mesh, mat, some light)

end LM.Obj
