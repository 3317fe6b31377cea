import Verif.Model.Vec
import Mathlib.Data.Int.Order.Basic
/-
  Wavefront OBJ loaders: src/objloader/objloader_simple.cpp (character by character) and plugin/objloader_tinyobjloader/objloader_tinyobjloader.cpp (from the shapes the parser library returns).
  A file is the list of its characters. atof is an argument. Log output is not modelled.
-/
namespace LM.Obj
open LM

/-- NUL-terminated strings, objloader_simple.cpp:165-231. -/
abbrev CStr := List Char

/-- OBJMeshFaceIndex, include/lm/objloader.h:36-45. -/
structure FaceIndex where
  p : Int := -1
  t : Int := -1
  n : Int := -1
deriving DecidableEq, Repr

/-- MTLMatParams, include/lm/objloader.h:55-70. emplace_back() value-initialises: zeros. -/
structure Mat (K : Type) where
  name : CStr
  illum : Int
  Kd : V3 K
  Ks : V3 K
  Ke : V3 K
  mapKd : CStr
  Ni : K
  Ns : K
  an : K

/-- OBJSurfaceGeometry, include/lm/objloader.h:22-31. next_vec3 is also used for texture coordinates, whose third component is dropped. -/
structure Geo (K : Type) where
  ps : List (V3 K) := []
  ns : List (V3 K) := []
  ts : List (K × K) := []

/-- Why a load stops early: undefined behaviour, or a return value false (objloader_simple.cpp:20-163). -/
inductive Err where
  | ub
  | fail
deriving DecidableEq, Repr

/-! ### Tokens (objloader_simple.cpp:165-231) -/

/-- eol, whitespace, objloader_simple.cpp:166-170. -/
def ws (c : Char) : Bool := c = ' ' || c = '\t'
/-- isspace of the C locale (used by atof/atoi, objloader_simple.cpp:182-195). -/
def isSpace (c : Char) : Bool := c = ' ' || c = '\t' || c = '\n' || c = '\x0b' || c = '\x0c' || c = '\r'

/-- command, objloader_simple.cpp:173: the token followed by a blank. -/
def command (t : CStr) (c : CStr) : Bool := c.isPrefixOf t && (match t.drop c.length with | [] => false | d :: _ => ws d)

/-- skip_spaces, objloader_simple.cpp:176. -/
def skipSpaces (t : CStr) : CStr := t.dropWhile ws
/-- skip_spaces_or_comments, objloader_simple.cpp:179: strcspn stops at the first of '/', ' ', tab. -/
def skipToken (t : CStr) : CStr := t.dropWhile (fun c => !(c = '/' || ws c))

/-- Value of a digit string (objloader_simple.cpp:182-195). -/
def digits (l : CStr) : Nat := l.foldl (fun acc c => acc * 10 + (c.toNat - '0'.toNat)) 0

/-- The optional sign of a number (objloader_simple.cpp:182-195). -/
def sign : CStr → Bool × CStr
  | '-' :: r => (true, r)
  | '+' :: r => (false, r)
  | r => (false, r)

/-- atoi; none: the value is not an int, which is undefined (used at objloader_simple.cpp:190-220). -/
def atoi (t : CStr) : Option Int :=
  let r := sign (t.dropWhile isSpace)
  let m : Int := digits (r.2.takeWhile Char.isDigit)
  let v := if r.1 then -m else m
  if -2 ^ 31 ≤ v ∧ v < 2 ^ 31 then some v else none

section
variable {K : Type} (atof : CStr → K)

/-- next_float, objloader_simple.cpp:182-187. -/
def nextFloat (t : CStr) : K × CStr :=
  let t := skipSpaces t
  (atof t, skipToken t)

/-- next_vec3, objloader_simple.cpp:198-204. -/
def nextVec3 (t : CStr) : V3 K × CStr :=
  let (x, t) := nextFloat atof t
  let (y, t) := nextFloat atof t
  let (z, t) := nextFloat atof t
  (⟨x, y, z⟩, t)
end

/-- next_int, objloader_simple.cpp:190-195. -/
def nextInt (t : CStr) : Option (Int × CStr) := do
  let t := skipSpaces t
  let v ← atoi t
  pure (v, skipToken t)

/-- next_string, objloader_simple.cpp:223-230: sscanf "%s" into 256 characters. none: the token does not fit, or there is no token and the buffer keeps what it had, at first nothing. -/
def nextString (t : CStr) : Option CStr :=
  let s := (t.dropWhile isSpace).takeWhile (fun c => !isSpace c)
  if s = [] ∨ s.length ≥ 256 then none else some s

/-- parse_index, objloader_simple.cpp:207. -/
def parseIndex (i : Int) (vn : Nat) : Int := if i < 0 then vn + i else if i > 0 then i - 1 else -1

/-- parse_indices, objloader_simple.cpp:208-220. Arguments: numbers of positions, texture coordinates and normals read so far. -/
def parseIndices (np nt nn : Nat) (t : CStr) : Option (FaceIndex × CStr) := do
  let t := skipSpaces t
  let a ← atoi t
  let i : FaceIndex := { p := parseIndex a np }
  match skipToken t with
  | [] => pure (i, [])
  | c :: t =>
    if c ≠ '/' then pure (i, t) else
    let a ← atoi t
    let i : FaceIndex := { i with t := parseIndex a nt }
    match skipToken t with
    | [] => pure (i, [])
    | c :: t =>
      if c ≠ '/' then pure (i, t) else
      let a ← atoi t
      pure ({ i with n := parseIndex a nn }, skipToken t)

/-- The loop over the four indices, objloader_simple.cpp:90-96: nothing is parsed at the end of the line. -/
def parseFour (np nt nn : Nat) : Nat → CStr → Option (List FaceIndex)
  | 0, _ => some []
  | k + 1, t =>
    if t = [] then (parseFour np nt nn k t).map ({} :: ·)
    else do
      let (i, t) ← parseIndices np nt nn t
      (parseFour np nt nn k t).map (i :: ·)

/-- Face statement, objloader_simple.cpp:89-101: the indices appended to the current primitive. -/
def parseFace (np nt nn : Nat) (t : CStr) : Option (List FaceIndex) := do
  match ← parseFour np nt nn 4 t with
  | [a, b, c, d] => pure ([a, b, c] ++ if d.p ≠ -1 then [a, c, d] else [])
  | _ => none

/-! ### Files -/

/-- std::istream::getline(l, 4096) until it fails: a line of more than 4095 characters sets failbit (objloader_simple.cpp:50-51, 240-241). -/
def getlines : (fuel : Nat) → List Char → List (List Char)
  | 0, _ => []
  | fuel + 1, text =>
    if text = [] then []
    else
      let l := text.takeWhile (· ≠ '\n')
      let rest := (text.dropWhile (· ≠ '\n')).drop 1
      if l.length > 4095 then [] else l :: getlines fuel rest

/-- The lines of a file as C strings (objloader_simple.cpp:50-51, 240-241). -/
def fileLines (text : List Char) : List CStr := (getlines (text.length + 1) text).map (fun l => l.takeWhile (· ≠ '\x00'))

section
variable {K : Type} [Field K] (atof : CStr → K)

/-- `ms_.emplace_back(); ms_.back().name = name`, objloader_simple.cpp:246-247. -/
def newMat (name : CStr) : Mat K := { name := name, illum := 0, Kd := 0, Ks := 0, Ke := 0, mapKd := [], Ni := 0, Ns := 0, an := 0 }

/-- ms_ and msmap_ (the index last stored under a name) (objloader_simple.cpp:16-17). -/
structure Mats (K : Type) where
  ms : List (Mat K) := []
  map : List (CStr × Nat) := []

/-- `msmap_[name] = index` (objloader_simple.cpp:246). -/
def Mats.put (m : List (CStr × Nat)) (name : CStr) (i : Nat) : List (CStr × Nat) := (name, i) :: m.filter (fun e => e.1 ≠ name)
/-- `msmap_.find(name)` (objloader_simple.cpp:120). -/
def Mats.find (m : List (CStr × Nat)) (name : CStr) : Option Nat := (m.find? (fun e => e.1 = name)).map (·.2)

/-- Apply a change to the last element: `auto& m = ms_.back()` (objloader_simple.cpp:254). -/
def modifyLast (l : List (Mat K)) (f : Mat K → Mat K) : List (Mat K) :=
  match l.reverse with
  | [] => []
  | m :: r => (f m :: r).reverse

/-- One line of loadmtl, objloader_simple.cpp:241-264. -/
def mtlLine (s : Mats K) (l : CStr) : Option (Mats K) :=
  let t := skipSpaces l
  if command t "newmtl".toList then do
    let name ← nextString (t.drop 7)
    pure { ms := s.ms ++ [newMat name], map := Mats.put s.map name s.ms.length }
  else if s.ms = [] then some s
  else if command t "Kd".toList then some { s with ms := modifyLast s.ms fun m => { m with Kd := (nextVec3 atof (t.drop 3)).1 } }
  else if command t "Ks".toList then some { s with ms := modifyLast s.ms fun m => { m with Ks := (nextVec3 atof (t.drop 3)).1 } }
  else if command t "Ni".toList then some { s with ms := modifyLast s.ms fun m => { m with Ni := (nextFloat atof (t.drop 3)).1 } }
  else if command t "Ns".toList then some { s with ms := modifyLast s.ms fun m => { m with Ns := (nextFloat atof (t.drop 3)).1 } }
  else if command t "aniso".toList then some { s with ms := modifyLast s.ms fun m => { m with an := (nextFloat atof (t.drop 5)).1 } }
  else if command t "Ke".toList then some { s with ms := modifyLast s.ms fun m => { m with Ke := (nextVec3 atof (t.drop 3)).1 } }
  else if command t "illum".toList then do
    let (v, _) ← nextInt (t.drop 6)
    pure { s with ms := modifyLast s.ms fun m => { m with illum := v } }
  else if command t "map_Kd".toList then do
    let name ← nextString (t.drop 7)
    pure { s with ms := modifyLast s.ms fun m => { m with mapKd := name } }
  else some s

/-- loadmtl, objloader_simple.cpp:233-265, on the text of an existing file. -/
def loadMtl (s : Mats K) (text : List Char) : Option (Mats K) := (fileLines text).foldlM (mtlLine atof) s

/-! ### load (objloader_simple.cpp:20-163) -/

/-- Primitive, objloader_simple.cpp:39-42. -/
structure Prim where
  material : Nat := 0
  fs : List FaceIndex := []

/-- Local variables of load (objloader_simple.cpp:20-49). -/
structure St (K : Type) where
  geo : Geo K := {}
  prims : List Prim := []
  curr : Nat := 0
  mats : Mats K := {}

/-- `if (primitives.empty() || !primitives.back().fs.empty()) primitives.emplace_back();`, objloader_simple.cpp:74-76, 109-111. -/
def freshPrim (l : List Prim) : List Prim :=
  match l.getLast? with
  | none => l ++ [{}]
  | some p => if p.fs = [] then l else l ++ [{}]

/-- Change the last primitive (objloader_simple.cpp:74-136). -/
def onLast (l : List Prim) (f : Prim → Prim) : List Prim :=
  match l.reverse with
  | [] => []
  | p :: r => (f p :: r).reverse

/-- One line, objloader_simple.cpp:50-136. `files` gives the text of a material library by the name in the statement. -/
def objLine (files : CStr → Option (List Char)) (s : St K) (l : CStr) : Except Err (St K) :=
  let t := skipSpaces l
  if command t "v".toList then .ok { s with geo := { s.geo with ps := s.geo.ps ++ [(nextVec3 atof (t.drop 2)).1] } }
  else if command t "vn".toList then .ok { s with geo := { s.geo with ns := s.geo.ns ++ [(nextVec3 atof (t.drop 3)).1] } }
  else if command t "vt".toList then
    let v := (nextVec3 atof (t.drop 3)).1
    .ok { s with geo := { s.geo with ts := s.geo.ts ++ [(v.x, v.y)] } }
  else if command t "g".toList then
    .ok { s with prims := onLast (freshPrim s.prims) fun p => { p with material := s.curr } }
  else if command t "f".toList then
    let prims := if s.prims = [] then [{}] else s.prims
    match parseFace s.geo.ps.length s.geo.ts.length s.geo.ns.length (t.drop 2) with
    | none => .error .ub
    | some is => .ok { s with prims := onLast prims fun p => { p with fs := p.fs ++ is } }
  else if command t "usemtl".toList then
    match nextString (t.drop 7) with
    | none => .error .ub
    | some name =>
      match Mats.find s.mats.map name with
      | none => .error .fail
      | some i => .ok { s with prims := onLast (freshPrim s.prims) fun p => { p with material := i }, curr := i }
  else if command t "mtllib".toList then
    match nextString (t.drop 7) with
    | none => .error .ub
    | some name =>
      match files name with
      | none => .error .fail
      | some text =>
        match loadMtl atof s.mats text with
        | none => .error .ub
        | some m => .ok { s with mats := m }
  else .ok s

/-- The statements of the file, objloader_simple.cpp:50-136. -/
def objLines (files : CStr → Option (List Char)) (s : St K) (ls : List CStr) : Except Err (St K) := ls.foldlM (objLine atof files) s

/-- `ms_.push_back({ "default", -1, Vec3(1) })`, objloader_simple.cpp:140. -/
def defaultMat : Mat K := { name := "default".toList, illum := -1, Kd := ⟨1, 1, 1⟩, Ks := 0, Ke := 0, mapKd := [], Ni := 0, Ns := 0, an := 0 }

/-- What load hands to its callbacks when they return true (objloader_simple.cpp:138-160). -/
structure Loaded (K : Type) where
  geo : Geo K
  materials : List (Mat K)
  meshes : List (List FaceIndex × Mat K)

/-- objloader_simple.cpp:138-160. `ms_.at` of a missing index throws: fail. -/
def finish (s : St K) : Except Err (Loaded K) :=
  let ms := if s.mats.ms = [] then [defaultMat] else s.mats.ms
  match s.prims.mapM (fun p => (ms[p.material]?).map (fun m => (p.fs, m))) with
  | none => .error .fail
  | some meshes => .ok { geo := s.geo, materials := ms, meshes := meshes }

/-- load, objloader_simple.cpp:20-163, with callbacks that return true. -/
def load (files : CStr → Option (List Char)) (text : List Char) : Except Err (Loaded K) := do
  finish (← objLines atof files {} (fileLines text))

end

/-! ### objloader_tinyobjloader.cpp:104-143 -/

/-- One triangulated face of tinyobj::mesh_t: its three indices and its material id (negative: none) (objloader_tinyobjloader.cpp:104-143). -/
structure TinyFace where
  is : FaceIndex × FaceIndex × FaceIndex
  material : Int

/-- The loop over the faces, objloader_tinyobjloader.cpp:110-135; arguments: fs, prev_material_id. Result: the calls of process_mesh (indices, material id). -/
def tinyFaces : List FaceIndex → Int → List TinyFace → List (List FaceIndex × Int)
  | fs, prev, [] => if fs = [] then [] else [(fs, prev)]
  | fs, prev, f :: r =>
    if f.material ≠ prev then (fs, prev) :: tinyFaces [] f.material r
    else tinyFaces (fs ++ [f.is.1, f.is.2.1, f.is.2.2]) prev r

/-- Process shapes, objloader_tinyobjloader.cpp:103-140. `our_mat_params[prev < 0 ? 0 : prev]`. none: material_ids[0] of a shape without faces. -/
def tinyShapes (shapes : List (List TinyFace)) : Option (List (List FaceIndex × Nat)) :=
  (shapes.mapM fun (s : List TinyFace) =>
    match s with
    | [] => none
    | f :: _ => some ((tinyFaces [] f.material s).map fun (e : List FaceIndex × Int) => (e.1, if e.2 < 0 then 0 else e.2.toNat))).map List.flatten

end LM.Obj
