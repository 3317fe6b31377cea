import Verif.Model.Surface
import Verif.Model.Dist
import Mathlib.Analysis.SpecialFunctions.Trigonometric.Basic
/-
  Materials: src/material/*.cpp and the mixture material of src/model/model_wavefrontobj.cpp. Float is ℝ.
  The virtual interface include/lm/material.h is a record of functions; materials referring to other materials take the records of those.
  An undefined value (division by zero, index out of range) is the outcome none / undef.
-/
namespace LM.Material
open LM LM.MathF LM.Surface

/-- Random numbers of direction sampling (DirectionSampleU, material.h:60-63): ud and udc, each in [0,1)^2. -/
structure DirU where
  ud0 : ℝ
  ud1 : ℝ
  udc0 : ℝ

/-- Result of sample_direction: nullopt, a weight that is not a number, or a direction and a weight (material.h:38-160). -/
inductive DirRes
  | fail
  | undef
  | ok (wo : V3 ℝ) (C : V3 ℝ)

/-- The interface of materials, material.h:38-160 (pure virtual functions). Components are numbered from 0. -/
structure Mat where
  /-- component and weight -/
  sampleComponent : ℝ → Geom → V3 ℝ → Option (Nat × ℝ)
  pdfComponent : Nat → Geom → V3 ℝ → Option ℝ
  sampleDirection : DirU → Geom → V3 ℝ → Nat → TransDir → DirRes
  /-- arguments geom wi wo comp eval_delta -/
  pdfDirection : Geom → V3 ℝ → V3 ℝ → Nat → Bool → Option ℝ
  eval : Geom → V3 ℝ → V3 ℝ → Nat → TransDir → Bool → Option (V3 ℝ)
  reflectance : Geom → V3 ℝ
  isSpecular : Nat → Option Bool

/-- x / y, undefined for y = 0 (used at material_*.cpp, e.g. material_glossy.cpp:91-108). -/
noncomputable def divF (x y : ℝ) : Option ℝ := if y = 0 then none else some (x / y)

/-- Vec3 / Float (used e.g. at material_glossy.cpp:70-86). -/
noncomputable def divV (f : V3 ℝ) (p : ℝ) : Option (V3 ℝ) := if p = 0 then none else some ((1 / p) • f)

/-- glm::normalize (used e.g. at material_glossy.cpp:70-86). -/
noncomputable def normalize (v : V3 ℝ) : Option (V3 ℝ) := if V3.dot v v = 0 then none else some ((1 / Real.sqrt (V3.dot v v)) • v)

/-- The pattern `C = f / p; return DirectionSample{wo, C}` (e.g. material_diffuse.cpp:60-80, material_glossy.cpp:70-86). -/
noncomputable def weightOf (wo : V3 ℝ) (f : Option (V3 ℝ)) (p : Option ℝ) : DirRes :=
  match f, p with
  | some f, some p => match divV f p with
    | some C => .ok wo C
    | none => .undef
  | _, _ => .undef

/-- material::diffuse, material_diffuse.cpp:60-95. `Kd g` is the texture lookup or the constant. -/
noncomputable def diffuse (Kd : Geom → V3 ℝ) : Mat where
  sampleComponent _ _ _ := some (0, 1)
  pdfComponent _ _ _ := some 1
  sampleDirection us g wi _ _ :=
    let (n, u, v) := basisTwosided g wi
    let d := sampleCosineWeighted us.ud0 us.ud1
    .ok (d.x • u + d.y • v + d.z • n) (Kd g)
  pdfDirection g wi wo _ _ := some (if opposite g wi wo then 0 else 1 / Real.pi)
  eval g wi wo _ _ _ := some (if opposite g wi wo then 0 else (1 / Real.pi) • Kd g)
  reflectance g := Kd g
  isSpecular _ := some false

/-- material::mirror, material_mirror.cpp:33-62. -/
noncomputable def mirror : Mat where
  sampleComponent _ _ _ := some (0, 1)
  pdfComponent _ _ _ := some 1
  sampleDirection _ g wi _ _ := .ok (reflection wi g.n) (V3.all 1)
  pdfDirection _ _ _ _ evalDelta := some (if evalDelta then 0 else 1)
  eval _ _ _ _ _ evalDelta := some (if evalDelta then V3.all 0 else V3.all 1)
  reflectance _ := V3.all 0
  isSpecular _ := some true

/-- material::mask, material_mask.cpp:30-59. -/
noncomputable def mask : Mat where
  sampleComponent _ _ _ := some (0, 1)
  pdfComponent _ _ _ := some 1
  sampleDirection _ _ wi _ _ := .ok (-wi) (V3.all 1)
  pdfDirection _ _ _ _ evalDelta := some (if evalDelta then 0 else 1)
  eval _ _ _ _ _ evalDelta := some (if evalDelta then V3.all 0 else V3.all 1)
  reflectance _ := V3.all 0
  isSpecular _ := some true

/-- material::proxy, material_proxy.cpp:25-70: forwards every call. -/
def proxy (ref : Mat) : Mat where
  sampleComponent u g wi := ref.sampleComponent u g wi
  pdfComponent c g wi := ref.pdfComponent c g wi
  sampleDirection u g wi c dir := ref.sampleDirection u g wi c dir
  pdfDirection g wi wo c e := ref.pdfDirection g wi wo c e
  eval g wi wo c dir e := ref.eval g wi wo c dir e
  reflectance g := ref.reflectance g
  isSpecular c := ref.isSpecular c

/-! ### Glossy, material_glossy.cpp:43-109 -/

/-- normal_dist, material_glossy.cpp:43-46. -/
noncomputable def normalDist (ax ay : ℝ) (wh u v n : V3 ℝ) : Option ℝ :=
  divF 1 (Real.pi * ax * ay * ((V3.dot wh u / ax) ^ 2 + (V3.dot wh v / ay) ^ 2 + V3.dot wh n ^ 2) ^ 2)

/-- The lambda G1 of shadowG, material_glossy.cpp:50-57. -/
noncomputable def G1 (ax ay : ℝ) (w u v n : V3 ℝ) : ℝ :=
  let c := V3.dot w n
  let s := max Eps (safeSqrt (1 - c * c))
  let cp := V3.dot w u / s
  let cs := V3.dot w v / s
  let a2 := (cp * ax) ^ 2 + (cs * ay) ^ 2
  if c = 0 then 0 else 2 / (1 + safeSqrt (1 + a2 * (s / c) ^ 2))

/-- shadowG, material_glossy.cpp:49-59. -/
noncomputable def shadowG (ax ay : ℝ) (wi wo u v n : V3 ℝ) : ℝ := G1 ax ay wi u v n * G1 ax ay wo u v n

/-- pdf_direction, material_glossy.cpp:91-98. -/
noncomputable def glossyPdf (ax ay : ℝ) (g : Geom) (wi wo : V3 ℝ) : Option ℝ :=
  if opposite g wi wo then some 0
  else
    let (n, u, v) := basisTwosided g wi
    match normalize (wi + wo) with
    | none => none
    | some wh => match normalDist ax ay wh u v n with
      | none => none
      | some D => divF (D * V3.dot wh n) (4 * V3.dot wo wh * V3.dot wo n)

/-- eval, material_glossy.cpp:100-108. -/
noncomputable def glossyEval (Ks : V3 ℝ) (ax ay : ℝ) (g : Geom) (wi wo : V3 ℝ) : Option (V3 ℝ) :=
  if opposite g wi wo then some 0
  else
    let (n, u, v) := basisTwosided g wi
    match normalize (wi + wo) with
    | none => none
    | some wh => match normalDist ax ay wh u v n with
      | none => none
      | some D =>
        let Fr : V3 ℝ := Ks + (1 - V3.dot wo wh) ^ 5 • (V3.all 1 - Ks)
        match divF (D * shadowG ax ay wi wo u v n) (4 * V3.dot wi n * V3.dot wo n) with
        | none => none
        | some x => some (x • (Ks * Fr))

/-- material::glossy; sample_direction: material_glossy.cpp:70-86. -/
noncomputable def glossy (Ks : V3 ℝ) (ax ay : ℝ) : Mat where
  sampleComponent _ _ _ := some (0, 1)
  pdfComponent _ _ _ := some 1
  sampleDirection us g wi _ _ :=
    let (n, u, v) := basisTwosided g wi
    let u1 := us.ud0 * 2 * Real.pi
    let u2 := us.ud1
    match normalize (safeSqrt (u2 / (1 - u2)) • ((ax * Real.cos u1) • u + (ay * Real.sin u1) • v) + n) with
    | none => .undef
    | some wh =>
      let wo := reflection wi wh
      if opposite g wi wo then .fail
      else weightOf wo (glossyEval Ks ax ay g wi wo) (glossyPdf ax ay g wi wo)
  pdfDirection g wi wo _ _ := glossyPdf ax ay g wi wo
  eval g wi wo _ _ _ := glossyEval Ks ax ay g wi wo
  reflectance _ := Ks
  isSpecular _ := some false

/-! ### Glass, material_glass.cpp:85-278, with MATERIAL_GLASS_USE_COMPONENT_SAMPLING = 1 -/

/-- in / n / eta, repeated in every function: the side of wi, the normal on that side and the relative index (material_glass.cpp:126-143, 145-164, 166-197, 221-229, 240-273). -/
noncomputable def glassSide (Ni : ℝ) (g : Geom) (wi : V3 ℝ) : V3 ℝ × ℝ := if V3.dot wi g.n > 0 then (g.n, 1 / Ni) else (-g.n, Ni)

/-- fresnel, material_glass.cpp:91-99. -/
noncomputable def fresnel (Ni : ℝ) (wi wt : V3 ℝ) (g : Geom) : ℝ :=
  let cos := if V3.dot wi g.n > 0 then V3.dot wi g.n else V3.dot wt g.n
  let r := (1 - Ni) / (1 + Ni)
  let r2 := r * r
  r2 + (1 - r2) * (1 - cos) ^ 5

/-- Fr = total ? 1 : fresnel(...) (material_glass.cpp:126-164, 240-273). -/
noncomputable def glassFr (Ni : ℝ) (g : Geom) (wi : V3 ℝ) : ℝ :=
  let (n, eta) := glassSide Ni g wi
  match refraction wi n eta with
  | none => 1
  | some wt => fresnel Ni wi wt g

/-- refr_correction, material_glass.cpp:86-88. -/
def refrCorrection (eta : ℝ) (dir : TransDir) : ℝ := if dir = .EL then eta * eta else 1

/-- eval, material_glass.cpp:240-273. -/
noncomputable def glassEval (Ni : ℝ) (g : Geom) (wi : V3 ℝ) (comp : Nat) (dir : TransDir) (evalDelta : Bool) : V3 ℝ :=
  if evalDelta then V3.all 0
  else if comp = 0 then V3.all (glassFr Ni g wi)
  else V3.all ((1 - glassFr Ni g wi) * refrCorrection (glassSide Ni g wi).2 dir)

/-- The refracted direction, or the zero vector of `return {{}, true}` (math.h:521). -/
noncomputable def glassWt (Ni : ℝ) (g : Geom) (wi : V3 ℝ) : V3 ℝ :=
  match refraction wi (glassSide Ni g wi).1 (glassSide Ni g wi).2 with
  | none => 0
  | some wt => wt

/-- material::glass; sample_component 126-143, pdf_component 145-164, sample_direction 166-197, pdf_direction 221-229 (material_glass.cpp:60-278). -/
noncomputable def glass (Ni : ℝ) : Mat where
  sampleComponent u g wi :=
    let Fr := glassFr Ni g wi
    let comp := if u < Fr then 0 else 1
    (divF 1 (if comp = 0 then Fr else 1 - Fr)).map (fun w => (comp, w))
  pdfComponent comp g wi := some (if comp = 0 then glassFr Ni g wi else 1 - glassFr Ni g wi)
  sampleDirection _ g wi comp dir :=
    if comp = 0 then
      weightOf (reflection wi g.n) (some (glassEval Ni g wi comp dir false)) (some 1)
    else
      weightOf (glassWt Ni g wi) (some (glassEval Ni g wi comp dir false)) (some 1)
  pdfDirection _ _ _ _ evalDelta := some (if evalDelta then 0 else 1)
  eval g wi _ comp dir evalDelta := some (glassEval Ni g wi comp dir evalDelta)
  reflectance _ := V3.all 0
  isSpecular _ := some true

/-! ### Mixtures, material_mixture.cpp -/

/-- Entry {material, weight} (material_mixture.cpp:24-41, 119-145). -/
abbrev Entry := Mat × ℝ

/-- Dist::add for each weight and norm (material_mixture.cpp:51-57, 169-180); none: total weight zero. -/
noncomputable def distOf (ws : List ℝ) : Option (Dist.Dist ℝ) := (Dist.addAll Dist.empty ws).bind Dist.norm

/-- sample_component / pdf_component of both mixtures, material_mixture.cpp:60-68, 183-191. -/
noncomputable def selectComp (d : Option (Dist.Dist ℝ)) (u : ℝ) : Option (Nat × ℝ) := do
  let c ← d
  let i ← Dist.sample c u
  let w ← divF 1 (Dist.pmf c i)
  return (i, w)

/-- material::constant_weight_mixture_rr, material_mixture.cpp:24-102. Underlying materials are called with component {} = 0. -/
noncomputable def mixtureRR (es : List Entry) : Mat where
  sampleComponent u _ _ := selectComp (distOf (es.map (·.2))) u
  pdfComponent comp _ _ := (distOf (es.map (·.2))).map (fun c => Dist.pmf c comp)
  sampleDirection us g wi comp dir :=
    match es[comp]? with
    | none => .undef
    | some e => match e.1.sampleDirection us g wi 0 dir with
      | .ok wo C => .ok wo (e.2 • C)
      | r => r
  pdfDirection g wi wo comp evalDelta := (es[comp]?).bind (fun e => e.1.pdfDirection g wi wo 0 evalDelta)
  eval g wi wo comp dir evalDelta := (es[comp]?).bind (fun e => (e.1.eval g wi wo 0 dir evalDelta).map (fun f => e.2 • f))
  reflectance g := (es.map (fun e => e.2 • e.1.reflectance g)).sum
  isSpecular comp := (es[comp]?).bind (fun e => e.1.isSpecular 0)

/-- One step of construct of the marginalized mixture, material_mixture.cpp:153-166: specular materials get a group of their own, others join group 0. -/
def addEntry (gs : List Entry × List (List Entry)) (e : Entry) : List Entry × List (List Entry) :=
  if e.1.isSpecular 0 = some true then (gs.1, gs.2 ++ [[e]]) else (gs.1 ++ [e], gs.2)

/-- material_groups_, material_mixture.cpp:148-166. -/
def groups (es : List Entry) : List (List Entry) :=
  let r := es.foldl addEntry ([], [])
  r.1 :: r.2

/-- pdf_direction of a group, material_mixture.cpp:228-238. -/
noncomputable def groupPdf (grp : List Entry) (g : Geom) (wi wo : V3 ℝ) (evalDelta : Bool) : Option ℝ :=
  match distOf (grp.map (·.2)) with
  | none => if grp = [] then some 0 else none
  | some d => (grp.zipIdx.mapM (fun (e : Entry × Nat) => (e.1.1.pdfDirection g wi wo 0 evalDelta).map (fun p => Dist.pmf d e.2 * p))).map List.sum

/-- eval of a group, material_mixture.cpp:240-248. -/
noncomputable def groupEval (grp : List Entry) (g : Geom) (wi wo : V3 ℝ) (dir : TransDir) (evalDelta : Bool) : Option (V3 ℝ) :=
  (grp.mapM (fun (e : Entry) => (e.1.eval g wi wo 0 dir evalDelta).map (fun f => e.2 • f))).map List.sum

/-- material::constant_weight_mixture_marginalized, material_mixture.cpp:119-258; sample_direction 193-215. -/
noncomputable def mixtureMarg (es : List Entry) : Mat where
  sampleComponent u _ _ := selectComp (distOf ((groups es).map (fun gr => (gr.map (·.2)).sum))) u
  pdfComponent comp _ _ := (distOf ((groups es).map (fun gr => (gr.map (·.2)).sum))).map (fun c => Dist.pmf c comp)
  sampleDirection us g wi comp dir :=
    match (groups es)[comp]? with
    | none => .undef
    | some grp => match (distOf (grp.map (·.2))).bind (fun d => Dist.sample d us.udc0) with
      | none => .undef
      | some i => match grp[i]? with
        | none => .undef
        | some e => match e.1.sampleDirection us g wi 0 dir with
          | .ok wo _ => weightOf wo (groupEval grp g wi wo dir false) (groupPdf grp g wi wo false)
          | r => r
  pdfDirection g wi wo comp evalDelta := ((groups es)[comp]?).bind (fun grp => groupPdf grp g wi wo evalDelta)
  eval g wi wo comp dir evalDelta := ((groups es)[comp]?).bind (fun grp => groupEval grp g wi wo dir evalDelta)
  reflectance g := ((groups es).map (fun grp => (grp.map (fun e => e.2 • e.1.reflectance g)).sum)).sum
  isSpecular comp := some (decide (comp ≠ 0))

/-! ### Mixture of the OBJ model, model_wavefrontobj.cpp:339-513 -/

/-- glm::compMax (used at model_wavefrontobj.cpp:427-435). -/
noncomputable def compMax (v : V3 ℝ) : ℝ := max (max v.x v.y) v.z

/-- diffuse_selection_prob, model_wavefrontobj.cpp:427-435. -/
noncomputable def diffuseProb (d gl : Mat) (g : Geom) : Option ℝ :=
  let wd := compMax (d.reflectance g)
  let wg := compMax (gl.reflectance g)
  if wd = 0 ∧ wg = 0 then some 1 else divF wd (wd + wg)

/-- pdf_direction, model_wavefrontobj.cpp:484-495. -/
noncomputable def objPdf (d gl : Mat) (g : Geom) (wi wo : V3 ℝ) (comp : Nat) (evalDelta : Bool) : Option ℝ :=
  if comp = 0 then do
    let w ← diffuseProb d gl g
    let pd ← d.pdfDirection g wi wo 0 evalDelta
    let pg ← gl.pdfDirection g wi wo 0 evalDelta
    return w * pd + (1 - w) * pg
  else some (if evalDelta then 0 else 1)

/-- eval, model_wavefrontobj.cpp:497-508. -/
noncomputable def objEval (d gl : Mat) (alpha : Geom → ℝ) (g : Geom) (wi wo : V3 ℝ) (comp : Nat) (dir : TransDir) (evalDelta : Bool) : Option (V3 ℝ) :=
  if comp = 0 then do
    let fd ← d.eval g wi wo 0 dir evalDelta
    let fg ← gl.eval g wi wo 0 dir evalDelta
    return alpha g • (fd + fg)
  else some (if evalDelta then V3.all 0 else V3.all (1 - alpha g))

/-- material::mixture_wavefrontobj; `alpha g` is eval_alpha (model_wavefrontobj.cpp:363-365): 1 without mask texture. -/
noncomputable def objMixture (d gl : Mat) (alpha : Geom → ℝ) : Mat where
  sampleComponent u g _ :=
    if u < alpha g then (divF 1 (alpha g)).map (fun w => (0, w)) else (divF 1 (1 - alpha g)).map (fun w => (1, w))
  pdfComponent comp g _ := some (if comp = 0 then alpha g else 1 - alpha g)
  sampleDirection us g wi comp dir :=
    if comp = 0 then
      match diffuseProb d gl g with
      | none => .undef
      | some w =>
        let m := if us.udc0 < w then d else gl
        match m.sampleDirection us g wi 0 dir with
        | .ok wo _ => weightOf wo (objEval d gl alpha g wi wo comp dir false) (objPdf d gl g wi wo comp false)
        | r => r
    else .ok (-wi) (V3.all 1)
  pdfDirection g wi wo comp evalDelta := objPdf d gl g wi wo comp evalDelta
  eval g wi wo comp dir evalDelta := objEval d gl alpha g wi wo comp dir evalDelta
  reflectance g := d.reflectance g
  isSpecular comp := some (decide (comp ≠ 0))

end LM.Material
