import Verif.Model.PathApi
/-
  Bidirectional paths, include/lm/bidir.h:24-644. A violated assertion, a null pointer, an out-of-range access, an undefined number or an exception is the outcome none.
-/
namespace LM.Path
open LM LM.Surface LM.Material LM.Light LM.Volume

/-- Vert, bidir.h:24-37. -/
structure Vert where
  sp : SI
  comp : Nat

/-- index, bidir.h:79-81. -/
def index (n : ℕ) (i : Int) (dir : TransDir) : Int := if dir = .LE then i else n - 1 - i

/-- vertex_at, bidir.h:95-97; none: nullptr. -/
def vertexAt (vs : List Vert) (i : Int) (dir : TransDir) : Option Vert := if 0 ≤ i ∧ i < vs.length then vs[(index vs.length i dir).toNat]? else none

/-- subpath_vertex_at, bidir.h:109-125. -/
def subpathVertexAt (vs : List Vert) (i : Int) : Option Vert := if 0 ≤ i ∧ i < vs.length then vs[i.toNat]? else none

/-- direction, bidir.h:140-154: the zero vector if a vertex is missing. -/
noncomputable def direction (a b : Option Vert) : Option (V3 ℝ) :=
  match a, b with
  | some a, some b =>
    if a.sp.geom.infinite && b.sp.geom.infinite then none
    else if a.sp.geom.infinite then some a.sp.geom.wo
    else if b.sp.geom.infinite then some (-b.sp.geom.wo)
    else normalize (b.sp.geom.p - a.sp.geom.p)
  | _, _ => some 0

/-- is_samplable_bidir, bidir.h:185-219; conditions are evaluated in order, each only if the earlier ones do not settle the answer. -/
noncomputable def isSamplable (W : World) (vs : List Vert) (s : ℕ) : Option Bool :=
  let t : Int := (vs.length : Int) - s
  if s = 0 then do
    let v ← vertexAt vs 0 .LE
    if v.sp.geom.degenerated then return false
    else return !(← isSpecularComponent W v.sp v.comp)
  else if t = 0 then do
    let v ← vertexAt vs 0 .EL
    if v.sp.geom.degenerated then return false
    else return !(← isSpecularComponent W v.sp v.comp)
  else do
    let vL ← vertexAt vs (s - 1) .LE
    let vE ← vertexAt vs (t - 1) .EL
    let cL ← if s = 1 then isConnectableEndpoint W vL.sp else some true
    if !cL then return false
    else
      let cE ← if t = 1 then isConnectableEndpoint W vE.sp else some true
      if !cE then return false
      else
        let sL ← isSpecularComponent W vL.sp vL.comp
        if sL then return false
        else return !(← isSpecularComponent W vE.sp vE.comp)

/-- The loop of eval_subpath_sampling_weight, bidir.h:261-275: k iterations from i. -/
noncomputable def alphaLoop (W : World) (vs : List Vert) (dir : TransDir) : ℕ → Int → V3 ℝ → Option (V3 ℝ)
  | 0, _, a => some a
  | k + 1, i, a => do
    let v ← vertexAt vs i dir
    let vn ← vertexAt vs (i + 1) dir
    let wi ← direction (some v) (vertexAt vs (i - 1) dir)
    let wo ← direction (some v) (some vn)
    let f ← evalContrbDirection W v.sp wi wo v.comp dir false
    if f = 0 then return 0
    else
      let pc ← pdfComponent W vn.sp (-wo) vn.comp
      let pd ← pdfDirection W v.sp wi wo v.comp false
      let x ← divV f pd
      let y ← divV x pc
      alphaLoop W vs dir k (i + 1) (a * y)

/-- eval_subpath_sampling_weight, bidir.h:233-277. -/
noncomputable def subpathWeight (W : World) (vs : List Vert) (l : ℕ) (dir : TransDir) : Option (V3 ℝ) :=
  if l = 0 then some (V3.all 1)
  else do
    let v0 ← vertexAt vs 0 dir
    let conn ← isConnectableEndpoint W v0.sp
    if conn then
      let pA ← pdfPosition W v0.sp
      let pc ← pdfComponent W v0.sp 0 v0.comp
      let a ← divV (V3.all 1) (pA * pc)
      alphaLoop W vs dir (l - 1) 0 a
    else if l = 1 then none
    else
      let v1 ← vertexAt vs 1 dir
      let d ← direction (some v0) (some v1)
      let f ← evalContrbDirection W v0.sp 0 d v0.comp dir false
      if f = 0 then return 0
      else
        let pc0 ← pdfComponent W v0.sp 0 v0.comp
        let pc1 ← pdfComponent W v1.sp (-d) v1.comp
        let pr ← pdfPrimaryRay W v0.sp d false
        let a ← divV f (pr * pc0 * pc1)
        alphaLoop W vs dir (l - 2) 1 a

/-- eval_connection_term, bidir.h:288-313. -/
noncomputable def connectionTerm (W : World) (vs : List Vert) (s : ℕ) : Option (V3 ℝ) :=
  let t : Int := (vs.length : Int) - s
  if s = 0 ∧ t > 0 then do
    let v ← vertexAt vs 0 .LE
    let d ← direction (some v) (vertexAt vs 1 .LE)
    evalContrbDirection W v.sp 0 d v.comp .LE true
  else if s > 0 ∧ t = 0 then do
    let v ← vertexAt vs 0 .EL
    let d ← direction (some v) (vertexAt vs 1 .EL)
    evalContrbDirection W v.sp 0 d v.comp .EL true
  else if s > 0 ∧ t > 0 then do
    let vL ← vertexAt vs (s - 1) .LE
    let vE ← vertexAt vs (t - 1) .EL
    let dL ← direction (some vL) (vertexAt vs (s - 2) .LE)
    let dE ← direction (some vE) (vertexAt vs (t - 2) .EL)
    let dLE ← direction (some vL) (some vE)
    let dEL ← direction (some vE) (some vL)
    let fL ← evalContrbDirection W vL.sp dL dLE vL.comp .LE true
    let fE ← evalContrbDirection W vE.sp dE dEL vE.comp .EL true
    let G ← geometryTerm vL.sp.geom vE.sp.geom
    return (G • fL) * fE
  else some 0

/-- eval_sampling_weight_bidir, bidir.h:325-343. -/
noncomputable def samplingWeight (W : World) (vs : List Vert) (s : ℕ) : Option (V3 ℝ) := do
  let aL ← subpathWeight W vs s .LE
  if aL = 0 then return 0
  else
    let aE ← subpathWeight W vs (vs.length - s) .EL
    if aE = 0 then return 0
    else
      let c ← connectionTerm W vs s
      return aL * c * aE

/-- The loop of eval_contrb_subpath, bidir.h:365-374. -/
noncomputable def contrbLoop (W : World) (vs : List Vert) (dir : TransDir) : ℕ → Int → V3 ℝ → Option (V3 ℝ)
  | 0, _, f => some f
  | k + 1, i, acc => do
    let v ← vertexAt vs i dir
    let vn ← vertexAt vs (i + 1) dir
    let wi ← direction (some v) (vertexAt vs (i - 1) dir)
    let wo ← direction (some v) (some vn)
    let f ← evalContrbDirection W v.sp wi wo v.comp dir false
    let G ← geometryTerm v.sp.geom vn.sp.geom
    contrbLoop W vs dir k (i + 1) (G • (acc * f))

/-- eval_contrb_subpath, bidir.h:360-376. -/
noncomputable def subpathContrb (W : World) (vs : List Vert) (l : ℕ) (dir : TransDir) : Option (V3 ℝ) :=
  if l = 0 then some (V3.all 1) else contrbLoop W vs dir (l - 1) 0 (V3.all 1)

/-- eval_measurement_contrb_bidir, bidir.h:355-386. -/
noncomputable def measurementContrb (W : World) (vs : List Vert) (s : ℕ) : Option (V3 ℝ) := do
  let fL ← subpathContrb W vs s .LE
  let fE ← subpathContrb W vs (vs.length - s) .EL
  let c ← connectionTerm W vs s
  return fL * c * fE

/-- The loop of pdf_subpath, bidir.h:430-439. -/
noncomputable def pdfLoop (W : World) (vs : List Vert) (dir : TransDir) : ℕ → Int → ℝ → Option ℝ
  | 0, _, p => some p
  | k + 1, i, p => do
    let v ← vertexAt vs i dir
    let vn ← vertexAt vs (i + 1) dir
    let wi ← direction (some v) (vertexAt vs (i - 1) dir)
    let wo ← direction (some v) (some vn)
    let pc ← pdfComponent W vn.sp (-wo) vn.comp
    let pd ← pdfDirection W v.sp wi wo v.comp false
    let pa ← convertToArea pd v.sp.geom vn.sp.geom
    pdfLoop W vs dir k (i + 1) (p * (pc * pa))

/-- pdf_subpath, bidir.h:407-441. -/
noncomputable def subpathPdf (W : World) (vs : List Vert) (l : ℕ) (dir : TransDir) : Option ℝ :=
  if l = 0 then some 1
  else do
    let v0 ← vertexAt vs 0 dir
    let conn ← isConnectableEndpoint W v0.sp
    if conn then
      let pA ← pdfPosition W v0.sp
      let pc ← pdfComponent W v0.sp 0 v0.comp
      pdfLoop W vs dir (l - 1) 0 (pA * pc)
    else
      let v1 ← vertexAt vs 1 dir
      let d ← direction (some v0) (some v1)
      let pr ← pdfPrimaryRay W v0.sp d false
      let pc0 ← pdfComponent W v0.sp 0 v0.comp
      let pc1 ← pdfComponent W v1.sp (-d) v1.comp
      let pa ← convertToArea pr v0.sp.geom v1.sp.geom
      pdfLoop W vs dir (l - 2) 1 (pa * pc0 * pc1)

/-- pdf_bidir, bidir.h:397-448. -/
noncomputable def pdfBidir (W : World) (vs : List Vert) (s : ℕ) : Option ℝ := do
  let ok ← isSamplable W vs s
  if !ok then return 0
  else
    let pL ← subpathPdf W vs s .LE
    let pE ← subpathPdf W vs (vs.length - s) .EL
    return pL * pE

/-- The loop of eval_mis_weight, bidir.h:468-475: k further strategies from s2. -/
noncomputable def misLoop (W : World) (vs : List Vert) (ps : ℝ) : ℕ → ℕ → ℝ → Option ℝ
  | 0, _, acc => some acc
  | k + 1, s2, acc => do
    let p ← pdfBidir W vs s2
    if p = 0 then misLoop W vs ps k (s2 + 1) acc
    else
      let r := p / ps
      misLoop W vs ps k (s2 + 1) (acc + r * r)

/-- eval_mis_weight, bidir.h:460-478 (power heuristic); the assertion ps > 0. -/
noncomputable def misWeight (W : World) (vs : List Vert) (s : ℕ) : Option ℝ := do
  let ps ← pdfBidir W vs s
  if ps > 0 then
    let inv ← misLoop W vs ps (vs.length + 1) 0 0
    divF 1 inv
  else none

/-! ### Subpaths -/

/-- What the scene answers in one iteration of the random walk: whether a ray was sampled (for the first vertex: the sampled endpoint), and the hit vertex with its sampled component (bidir.h:185-277). -/
structure Step where
  start : Option SI
  sampled : Bool
  hit : Option Vert

/-- sample_subpath_from_endpoint, bidir.h:507-556, as a loop over the successive answers of the scene; none: the given answers did not suffice to leave the loop. -/
def walk (maxVerts : Int) : List Vert → List Step → Option (List Vert)
  | vs, st => if maxVerts = 0 then some vs
    else if (vs.length : Int) < maxVerts then
      match st with
      | [] => none
      | a :: st =>
        -- the ray: from a sampled endpoint (which is pushed) or from the last vertex
        let ray : Option (List Vert) :=
          if vs.length = 0 then a.start.map (fun sp => [⟨sp, 0⟩])
          else if a.sampled then some vs else none
        match ray with
        | none => some vs
        | some vs => match a.hit with
          | none => some vs
          | some h => if h.sp.geom.infinite then some (vs ++ [h]) else walk maxVerts (vs ++ [h]) st
    else some vs

/-- as_type, surface.h:240-244. -/
def SI.asType (sp : SI) (k : Kind) : SI := { sp with kind := k }

/-- is_light, scene.cpp:353-362: media never emit (is_emitter is false in both media). -/
def isLight (W : World) (sp : SI) : Bool := if sp.kind = .medium then false else (W.lightAt sp.primitive).isSome
/-- is_camera, scene.cpp:364-366. -/
def isCamera (W : World) (sp : SI) : Bool := decide (W.st.camera = some sp.primitive)

/-- Result of connect_subpaths (bidir.h:288-313). -/
inductive Conn
  | undef
  | fail
  | ok (vs : List Vert)

/-- The type checks and updates at the end of connect_subpaths, bidir.h:627-643. -/
def finish (W : World) (vs : List Vert) : Conn :=
  match vs[0]?, vs[vs.length - 1]? with
  | some vL, some vE =>
    if !isLight W vL.sp then .fail
    else if !isCamera W vE.sp then .fail
    else
      let vs := vs.set 0 { vL with sp := vL.sp.asType .light }
      match vs[vs.length - 1]? with
      | some vE => .ok (vs.set (vs.length - 1) { vE with sp := vE.sp.asType .camera })
      | none => .undef
  | _, _ => .undef

/-- connect_subpaths, bidir.h:593-644. `vis` is scene->visible. -/
def connect (W : World) (vis : SI → SI → Bool) (L E : List Vert) (s t : ℕ) : Conn :=
  if s = 0 ∧ t = 0 then .undef
  else if s = 0 then
    match subpathVertexAt E (t - 1) with
    | none => .undef
    | some v => if v.sp.geom.degenerated then .fail else finish W (E.take t).reverse
  else if t = 0 then
    match subpathVertexAt L (s - 1) with
    | none => .undef
    | some v => if v.sp.geom.degenerated then .fail else finish W (L.take s)
  else
    match L[s - 1]?, E[t - 1]? with
    | some vL, some vE =>
      if vL.sp.geom.infinite || vE.sp.geom.infinite then .fail
      else if !vis vL.sp vE.sp then .fail
      else finish W (L.take s ++ (E.take t).reverse)
    | _, _ => .undef

end LM.Path
