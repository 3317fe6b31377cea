import Verif.Model.Light
import Verif.Model.Scene
import Verif.Model.Volume
/-
  The path sampling API, include/lm/path.h:56-794, over scenes with lights, one camera, materials and one medium.
  Calls through null pointers, out-of-range indices, divisions by zero and thrown exceptions are `undef` / none.
-/
namespace LM.Path
open LM LM.Surface LM.Material LM.Light LM.Volume

/-- SceneInteraction::Type, scene.h:40-57 (single types). -/
inductive Kind | camera | light | medium | surface
deriving DecidableEq

/-- SceneInteraction, scene.h:33-: type, primitive node index and point geometry. -/
structure SI where
  kind : Kind
  primitive : Int
  geom : Geom

/-- The scene (scene graph with built light tables) and the assets its primitives refer to. `phase` is what Medium::phase() of the medium asset returns;
    `junk` is the content of uninitialised members of degenerate point geometries (path.h:56-794, scene.h:40-57). -/
structure World where
  st : Scene.St (Aff ℝ)
  light : ℕ → Light
  material : ℕ → Mat
  phase : ℕ → Phase
  camera : ℕ → Camera
  junk : V3 ℝ

/-- scene->node_at(i).primitive (path.h:56-794). -/
def World.prim (W : World) (i : Int) : Option Scene.Prim :=
  match Scene.at? W.st.nodes i with
  | some (.prim _ p) => some p
  | _ => none
/-- The light of a node, scene->node_at(i).primitive.light, as used in path.h:56-794. -/
def World.lightAt (W : World) (i : Int) : Option Light := (W.prim i).bind (fun p => p.light.map W.light)
/-- The material of a node, as used in path.h:56-794. -/
def World.materialAt (W : World) (i : Int) : Option Mat := (W.prim i).bind (fun p => p.material.map W.material)
/-- The phase function of the medium of a node, as used in path.h:56-794. -/
def World.phaseAt (W : World) (i : Int) : Option Phase := (W.prim i).bind (fun p => p.medium.map W.phase)
/-- The camera of a node, as used in path.h:56-794. -/
def World.cameraAt (W : World) (i : Int) : Option Camera := (W.prim i).bind (fun p => p.camera.map W.camera)

/-- RaySampleU, path.h:62-67: up, upc, ud (udc is never read). -/
structure RaySampleU where
  up0 : ℝ
  up1 : ℝ
  upc0 : ℝ
  upc1 : ℝ
  ud0 : ℝ
  ud1 : ℝ

/-- Result of the sampling functions (path.h:56-794). -/
inductive SRes
  | fail
  | undef
  | ok (sp : SI) (wo : V3 ℝ) (C : V3 ℝ)

/-- {u.up, u.upc[1], u.ud} (path.h:56-330). -/
def RaySampleU.toLight (u : RaySampleU) : RayU := ⟨u.up0, u.up1, u.upc1, u.ud0, u.ud1⟩

/-- Wraps the sample of a light or camera with its node, weight scaled by k (path.h:56-330). -/
noncomputable def wrap (kind : Kind) (node : Int) (k : ℝ) : Res → SRes
  | .fail => .fail
  | .ok g wo C => .ok ⟨kind, node, g⟩ wo (k • C)
  | _ => .undef

/-- The LE branches of sample_primary_ray (path.h:101-118), sample_position (281-298) and sample_direct (508-527): select a light, sample it with `f`,
    and divide the weight by the selection probability if `divide`. -/
noncomputable def sampleFromLight (W : World) (u : ℝ) (divide : Bool) (f : Light → Aff ℝ → Res) : SRes :=
  match Scene.sampleLightSelection W.st.lights.length u with
  | (_, none) => .undef
  | (i, some pSel) => match Scene.lightPrimitiveIndexAt W.st i with
    | none => .undef
    | some (M, node) => match W.lightAt node with
      | none => .undef
      | some L => wrap .light node (if divide then 1 / pSel else 1) (f L M)

/-- sample_primary_ray, path.h:85-120. -/
noncomputable def samplePrimaryRay (W : World) (u : RaySampleU) : TransDir → SRes
  | .EL => match W.st.camera with
    | none => .undef
    | some n => match W.cameraAt n with
      | none => .undef
      | some c => wrap .camera n 1 (camSampleRay c W.junk u.toLight)
  | .LE => sampleFromLight W u.upc0 true (fun L M => L.sampleRay u.toLight M)

/-- The LightEndpoint branches of pdf_primary_ray (path.h:154-160), pdf_position (336-342) and pdf_direct (573-580). -/
noncomputable def pdfOnLight (W : World) (node : Int) (f : Light → Aff ℝ → Option ℝ) : Option ℝ := do
  let i ← Scene.lightIndexAt W.st node
  let (M, _) ← Scene.lightPrimitiveIndexAt W.st i
  let pSel ← Scene.pdfLightSelection W.st.lights.length i
  let L ← W.lightAt node
  let p ← f L M
  return pSel * p

/-- pdf_primary_ray, path.h:149-162. -/
noncomputable def pdfPrimaryRay (W : World) (sp : SI) (wo : V3 ℝ) (evalDelta : Bool) : Option ℝ :=
  match sp.kind with
  | .camera => (W.cameraAt sp.primitive).bind (fun c => camPdfDirection c wo)
  | .light => pdfOnLight W sp.primitive (fun L M => L.pdfRay sp.geom wo M evalDelta)
  | _ => none

/-- sample_component, path.h:193-200. -/
noncomputable def sampleComponent (W : World) (u : ℝ) (sp : SI) (wi : V3 ℝ) : Option (Nat × ℝ) :=
  match sp.kind with
  | .surface => (W.materialAt sp.primitive).bind (fun m => m.sampleComponent u sp.geom wi)
  | _ => some (0, 1)

/-- pdf_component, path.h:228-234. -/
noncomputable def pdfComponent (W : World) (sp : SI) (wi : V3 ℝ) (comp : Nat) : Option ℝ :=
  match sp.kind with
  | .surface => (W.materialAt sp.primitive).bind (fun m => m.pdfComponent comp sp.geom wi)
  | _ => some 1

/-- sample_position, path.h:267-300. The light branch does not divide by the selection probability. -/
noncomputable def samplePosition (W : World) (u : RaySampleU) : TransDir → SRes
  | .EL => match W.st.camera with
    | none => .undef
    | some n => match W.cameraAt n with
      | none => .undef
      | some c => .ok ⟨.camera, n, makeDegenerated c.position W.junk⟩ 0 (V3.all 1)
  | .LE => sampleFromLight W u.upc0 false (fun L M => L.samplePosition u.toLight M)

/-- pdf_position, path.h:327-344; the camera's is 1 (camera_pinhole.cpp:171-173). -/
noncomputable def pdfPosition (W : World) (sp : SI) : Option ℝ :=
  match sp.kind with
  | .camera => (W.cameraAt sp.primitive).map (fun _ => 1)
  | .light => pdfOnLight W sp.primitive (fun L M => L.pdfPosition sp.geom M)
  | _ => none

/-- Random numbers for directions, path.h:359-362: ud and udc. -/
noncomputable def toRayU (u : DirU) : RayU := ⟨0, 0, 0, u.ud0, u.ud1⟩

/-- sample_direction, path.h:378-422. -/
noncomputable def sampleDirection (W : World) (u : DirU) (sp : SI) (wi : V3 ℝ) (comp : Nat) (dir : TransDir) : DirRes :=
  match sp.kind with
  | .camera => match W.cameraAt sp.primitive with
    | none => .undef
    | some c => match primaryRay c u.ud0 u.ud1 with
      | none => .undef
      | some d => .ok d (V3.all 1)
  | .light => match W.lightAt sp.primitive with
    | none => .undef
    | some L => match L.sampleDirection (toRayU u) sp.geom with
      | .fail => .fail
      | .ok _ wo C => .ok wo C
      | _ => .undef
  | .medium => match W.phaseAt sp.primitive with
    | none => .undef
    | some ph => ph.sampleDirection u.ud0 u.ud1 wi
  | .surface => match W.materialAt sp.primitive with
    | none => .undef
    | some m => match m.sampleDirection u sp.geom wi comp dir with
      | .ok wo C => .ok wo (shadingNormalCorrection sp.geom wi wo dir • C)
      | r => r

/-- pdf_direction, path.h:457-470. -/
noncomputable def pdfDirection (W : World) (sp : SI) (wi wo : V3 ℝ) (comp : Nat) (evalDelta : Bool) : Option ℝ :=
  match sp.kind with
  | .camera => (W.cameraAt sp.primitive).bind (fun c => camPdfDirection c wo)
  | .light => (W.lightAt sp.primitive).bind (fun L => L.pdfDirection sp.geom wo)
  | .medium => (W.phaseAt sp.primitive).bind (fun ph => ph.pdfDirection wi wo)
  | .surface => (W.materialAt sp.primitive).bind (fun m => m.pdfDirection sp.geom wi wo comp evalDelta)

/-- sample_direct, path.h:493-530. -/
noncomputable def sampleDirect (W : World) (u : RaySampleU) (sp : SI) : TransDir → SRes
  | .EL => match W.st.camera with
    | none => .undef
    | some n => match W.cameraAt n with
      | none => .undef
      | some c => wrap .camera n 1 (camSampleDirect c W.junk sp.geom)
  | .LE => sampleFromLight W u.upc0 true (fun L M => L.sampleDirect u.toLight sp.geom M)

/-- pdf_direct, path.h:563-583. -/
noncomputable def pdfDirect (W : World) (sp spE : SI) (wo : V3 ℝ) (evalDelta : Bool) : Option ℝ :=
  match spE.kind with
  | .camera => (W.cameraAt spE.primitive).bind (fun _ => camPdfDirect sp.geom spE.geom)
  | .light => pdfOnLight W spE.primitive (fun L M => L.pdfDirect sp.geom spE.geom M wo evalDelta)
  | _ => none

/-- is_specular_component, path.h:695-704. -/
noncomputable def isSpecularComponent (W : World) (sp : SI) (comp : Nat) : Option Bool :=
  match sp.kind with
  | .surface => (W.materialAt sp.primitive).bind (fun m => m.isSpecular comp)
  | .light => (W.lightAt sp.primitive).map (·.isSpecular)
  | _ => some false

/-- is_connectable_endpoint, path.h:716-725; the pinhole camera's answer is true. -/
noncomputable def isConnectableEndpoint (W : World) (sp : SI) : Option Bool :=
  match sp.kind with
  | .camera => (W.cameraAt sp.primitive).map (fun _ => true)
  | .light => (W.lightAt sp.primitive).map (·.isConnectable)
  | _ => none

/-- eval_contrb_direction, path.h:761-775. A primitive without camera / light evaluates to 0. -/
noncomputable def evalContrbDirection (W : World) (sp : SI) (wi wo : V3 ℝ) (comp : Nat) (dir : TransDir) (evalDelta : Bool) : Option (V3 ℝ) :=
  match sp.kind with
  | .camera => match W.cameraAt sp.primitive with
    | none => some (V3.all 0)
    | some c => camEval c wo
  | .light => match W.lightAt sp.primitive with
    | none => some (V3.all 0)
    | some L => some (L.eval sp.geom wo evalDelta)
  | .medium => (W.phaseAt sp.primitive).bind (fun ph => ph.eval wi wo)
  | .surface => (W.materialAt sp.primitive).bind (fun m =>
      (m.eval sp.geom wi wo comp dir evalDelta).map (fun f => shadingNormalCorrection sp.geom wi wo dir • f))

/-! ### Distances -/

/-- Result of sample_distance: nullopt, undefined, or an interaction with its weight (path.h:640-794). -/
inductive DRes
  | fail
  | undef
  | ok (sp : SI) (C : V3 ℝ)

/-- `dist` of sample_distance, path.h:613. -/
noncomputable def hitDistance (sp : SI) (hit : Option SI) : ℝ :=
  match hit with
  | some h => if h.geom.infinite then Inf else Real.sqrt (V3.dot (h.geom.p - sp.geom.p) (h.geom.p - sp.geom.p))
  | none => Inf

/-- sample_distance, path.h:610-638. `hit` is the result of scene->intersect, `medium` the medium's sample_distance for tmin and tmax. Without medium node, node_at(-1) throws. -/
noncomputable def sampleDistance (W : World) (medium : ℝ → ℝ → DistRes) (hit : Option SI) (sp : SI) : DRes :=
  match W.st.medium with
  | none => .undef
  | some n =>
    let surface (C : V3 ℝ) : DRes := match hit with
      | none => .fail
      | some h => .ok h C
    match medium 0 (hitDistance sp hit) with
    | .undef => .undef
    | .ok p C true => .ok ⟨.medium, n, makeDegenerated p W.junk⟩ C
    | .ok _ C false => surface C
    | .none => surface (V3.all 1)

/-- eval_transmittance, path.h:655-675. `vis` is scene->visible, `medium d dist` the medium's answer for direction d and the range [0, dist]. sp1 must not be infinite (assertion). -/
noncomputable def evalTransmittance (W : World) (vis : Bool) (medium : V3 ℝ → ℝ → Option (V3 ℝ)) (sp1 sp2 : SI) : Option (V3 ℝ) :=
  if !vis then some (V3.all 0)
  else match W.st.medium with
    | none => some (V3.all 1)
    | some _ =>
      if sp1.geom.infinite then none
      else if sp2.geom.infinite then medium (-sp2.geom.wo) Inf
      else (normalize (sp2.geom.p - sp1.geom.p)).bind (fun wo => medium wo (Real.sqrt (V3.dot (sp1.geom.p - sp2.geom.p) (sp1.geom.p - sp2.geom.p))))

end LM.Path
