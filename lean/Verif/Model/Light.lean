import Verif.Model.Material
import Mathlib.Analysis.SpecialFunctions.Complex.Arg
import Mathlib.Analysis.SpecialFunctions.Trigonometric.Inverse
/-
  Lights (src/light/*.cpp) and the pinhole camera (src/camera/camera_pinhole.cpp). Float is ℝ.
  Undefined values (division by zero, normalizing the zero vector) are none / undef; LM_THROW_EXCEPTION(Unsupported) is unsupported.
-/
namespace LM.Light
open LM LM.MathF LM.Surface LM.Material

/-- Random numbers of ray sampling (RaySampleU, light.h): up, upc, ud (light.h:48-52). -/
structure RayU where
  up0 : ℝ
  up1 : ℝ
  upc : ℝ
  ud0 : ℝ
  ud1 : ℝ

/-- Result of a sampling function: geometry, direction and weight (light.h:64, 168). -/
inductive Res
  | fail
  | undef
  | unsupported
  | ok (g : Geom) (wo : V3 ℝ) (C : V3 ℝ)

/-- The interface of lights, light.h (pure virtual functions). pdf functions: none for an undefined value or an exception (light.h:48-215). -/
structure Light where
  sampleRay : RayU → Aff ℝ → Res
  pdfRay : Geom → V3 ℝ → Aff ℝ → Bool → Option ℝ
  /-- result geometry is the given one -/
  sampleDirection : RayU → Geom → Res
  pdfDirection : Geom → V3 ℝ → Option ℝ
  /-- the direction of the result is meaningless -/
  samplePosition : RayU → Aff ℝ → Res
  pdfPosition : Geom → Aff ℝ → Option ℝ
  sampleDirect : RayU → Geom → Aff ℝ → Res
  /-- arguments geom geomL transform wo eval_delta -/
  pdfDirect : Geom → Geom → Aff ℝ → V3 ℝ → Bool → Option ℝ
  isSpecular : Bool
  isInfinite : Bool
  isConnectable : Bool
  eval : Geom → V3 ℝ → Bool → V3 ℝ

/-- `Le / p`, packaged as a sample (e.g. light_area.cpp:75-100). -/
noncomputable def ray (g : Geom) (wo : V3 ℝ) (Le : V3 ℝ) (p : Option ℝ) : Res :=
  match p with
  | none => .undef
  | some p => match divV Le p with
    | none => .undef
    | some C => .ok g wo C

/-- The pattern `if (pL == 0) return {}; ... Le / pL` (e.g. light_area.cpp:105-135). -/
noncomputable def rayOrFail (g : Geom) (wo : V3 ℝ) (Le : V3 ℝ) (p : Option ℝ) : Res :=
  if p = some 0 then .fail else ray g wo Le p

/-- pdf_uniform_sphere, math.h:687-689. -/
noncomputable def pdfSphere : ℝ := 1 / (4 * Real.pi)
/-- pdf_cosine_weighted_projSA, math.h:665-667. -/
noncomputable def pdfCosine : ℝ := 1 / Real.pi

/-- `G == 0 ? 0 : x / G` (e.g. light_area.cpp:167-173). -/
noncomputable def overG (x : ℝ) (G : Option ℝ) : Option ℝ := G.map (fun G => if G = 0 then 0 else x / G)

/-! ### light::area, light_area.cpp -/

/-- A mesh triangle (mesh.h:34-38). -/
structure Tri where
  a : V3 ℝ
  b : V3 ℝ
  c : V3 ℝ

/-- Triangle area as computed in construct, light_area.cpp:68-70. -/
noncomputable def triArea (t : Tri) : ℝ :=
  let cr := V3.cross (t.b - t.a) (t.c - t.a)
  safeSqrt (V3.dot cr cr) * (1 / 2)

/-- dist_, light_area.cpp:67-73. -/
noncomputable def areaDist (ts : List Tri) : Option (Dist.Dist ℝ) := distOf (ts.map triArea)

/-- invA_, light_area.cpp:72. -/
noncomputable def invA (ts : List Tri) : Option ℝ := divF 1 (ts.map triArea).sum

/-- tranformed_invA, light_area.cpp:40-45: invA / J with J = |det|, math.h:744. -/
noncomputable def transformedInvA (ts : List Tri) (M : Aff ℝ) : Option ℝ := (invA ts).bind (fun i => divF i |M.det|)

/-- geometry_normal, math.h:560-562. -/
noncomputable def geometryNormal (t : Tri) : Option (V3 ℝ) := normalize (V3.cross (t.b - t.a) (t.c - t.a))

/-- sample_position_on_triangle_mesh, light_area.cpp:47-59. `sgn` is the sign bit of a zero normal component. -/
noncomputable def sampleOnMesh (sgn : V3 ℝ → Bool) (junk : V3 ℝ) (ts : List Tri) (us : RayU) (M : Aff ℝ) : Option Geom := do
  let d ← areaDist ts
  let i ← Dist.sample d us.upc
  let t ← ts[i]?
  let p := sampleTriangle t.a t.b t.c us.up0 us.up1
  let gn ← geometryNormal t
  let _ ← divF 1 M.det
  let gnT ← normalize (M.normalM gn)
  return makeOnSurface (M.app p) gnT gnT (sgn gnT) junk

/-- eval, light_area.cpp:185-187. -/
noncomputable def areaEval (Ke : V3 ℝ) (g : Geom) (wo : V3 ℝ) : V3 ℝ := if V3.dot wo g.n ≤ 0 then V3.all 0 else Ke

/-- The cosine-weighted direction around the normal of g (light_area.cpp:84-89, 114-118). -/
noncomputable def cosineAround (sgn : V3 ℝ → Bool) (g : Geom) (us : RayU) : V3 ℝ :=
  let d := sampleCosineWeighted us.ud0 us.ud1
  let uv := orthonormalBasis g.n (sgn g.n)
  d.x • uv.1 + d.y • uv.2 + d.z • g.n

/-- pdf_direct, light_area.cpp:167-173. -/
noncomputable def areaPdfDirect (ts : List Tri) (g gL : Geom) (M : Aff ℝ) (wo : V3 ℝ) : Option ℝ :=
  if V3.dot wo gL.n ≤ 0 then some 0 else (transformedInvA ts M).bind (fun i => overG i (geometryTerm g gL))

/-- light::area, light_area.cpp:23-192. -/
noncomputable def area (sgn : V3 ℝ → Bool) (junk : V3 ℝ) (Ke : V3 ℝ) (ts : List Tri) : Light where
  sampleRay us M :=
    match sampleOnMesh sgn junk ts us M with
    | none => .undef
    | some g =>
      let wo := cosineAround sgn g us
      ray g wo (areaEval Ke g wo) ((transformedInvA ts M).map (fun pA => pA * pdfCosine))
  pdfRay g wo M _ := (transformedInvA ts M).map (fun pA => pA * (if V3.dot wo g.n ≤ 0 then 0 else pdfCosine))
  sampleDirection us g :=
    let wo := cosineAround sgn g us
    ray g wo (areaEval Ke g wo) (some pdfCosine)
  pdfDirection g wo := some (if V3.dot wo g.n ≤ 0 then 0 else pdfCosine)
  samplePosition us M :=
    match sampleOnMesh sgn junk ts us M with
    | none => .undef
    | some g => ray g 0 (V3.all 1) (transformedInvA ts M)
  pdfPosition _ M := transformedInvA ts M
  sampleDirect us g M :=
    match sampleOnMesh sgn junk ts us M with
    | none => .undef
    | some gL => match normalize (g.p - gL.p) with
      | none => .undef
      | some wo => rayOrFail gL wo (areaEval Ke gL wo) (areaPdfDirect ts g gL M wo)
  pdfDirect g gL M wo _ := areaPdfDirect ts g gL M wo
  isSpecular := false
  isInfinite := false
  isConnectable := true
  eval g wo _ := areaEval Ke g wo

/-! ### light::point, light_point.cpp -/

/-- light::point, light_point.cpp:22-125. -/
noncomputable def point (Le position junk : V3 ℝ) : Light where
  sampleRay us _ := ray (makeDegenerated position junk) (sampleUniformSphere us.ud0 us.ud1) Le (some pdfSphere)
  pdfRay _ _ _ _ := some pdfSphere
  sampleDirection us g := ray g (sampleUniformSphere us.ud0 us.ud1) Le (some pdfSphere)
  pdfDirection _ _ := some pdfSphere
  samplePosition _ _ := .ok (makeDegenerated position junk) 0 (V3.all 1)
  pdfPosition _ _ := some 1
  sampleDirect _ g _ :=
    match normalize (g.p - position) with
    | none => .undef
    | some wo =>
      let gL := makeDegenerated position junk
      rayOrFail gL wo Le (overG 1 (geometryTerm g gL))
  pdfDirect g gL _ _ _ := overG 1 (geometryTerm g gL)
  isSpecular := false
  isInfinite := false
  isConnectable := true
  eval _ _ _ := Le

/-! ### Lights at infinity -/

/-- SphereBound as set by set_scene_bound (light_directional.cpp:41-46, light_env.cpp:77-82, light_envconst.cpp:38-43): centre of the box and 1.01 times half of its diagonal. -/
noncomputable def sphereBound (bmin bmax : V3 ℝ) : V3 ℝ × ℝ :=
  let c := (1 / 2 : ℝ) • (bmax + bmin)
  (c, Real.sqrt (V3.dot (bmax - c) (bmax - c)) * (101 / 100))

/-- The point on the disk perpendicular to d (light_directional.cpp:53-58, light_env.cpp:92-96). -/
noncomputable def diskPoint (sgn : V3 ℝ → Bool) (c : V3 ℝ) (r : ℝ) (d : V3 ℝ) (us : RayU) : V3 ℝ :=
  let q := sampleUniformDisk us.up0 us.up1
  let uv := orthonormalBasis d (sgn d)
  c + r • (-d) + ((q.1 * r) • uv.1 + (q.2 * r) • uv.2)

/-- 1 / (Pi r²) (e.g. light_directional.cpp:60-80). -/
noncomputable def pdfDisk (r : ℝ) : Option ℝ := divF 1 (Real.pi * r * r)

/-- light::directional, light_directional.cpp:22-132; `direction` is the normalized one. -/
noncomputable def directional (sgn : V3 ℝ → Bool) (junk Le direction c : V3 ℝ) (r : ℝ) : Light where
  sampleRay us _ :=
    let g := makeInfinite direction (diskPoint sgn c r direction us) junk
    ray g direction Le (pdfDisk r)
  pdfRay _ _ _ evalDelta := if evalDelta then some 1 else pdfDisk r
  sampleDirection _ _ := .unsupported
  pdfDirection _ _ := none
  samplePosition _ _ := .unsupported
  pdfPosition _ _ := none
  sampleDirect _ g _ :=
    let gL := makeInfinite direction junk junk
    rayOrFail gL direction Le (some (convertSAtoProjSA 1 g (-direction)))
  pdfDirect g gL _ _ evalDelta := some (if evalDelta then 0 else convertSAtoProjSA 1 g (-gL.wo))
  isSpecular := true
  isInfinite := true
  isConnectable := false
  eval _ _ evalDelta := if evalDelta then V3.all 0 else Le

/-- light::envconst, light_envconst.cpp:21-142. -/
noncomputable def envconst (sgn : V3 ℝ → Bool) (junk Le c : V3 ℝ) (r : ℝ) : Light where
  sampleRay us _ :=
    let d := sampleUniformSphere us.ud0 us.ud1
    ray (makeInfinite d (diskPoint sgn c r d us) junk) d Le ((pdfDisk r).map (fun pA => pdfSphere * pA))
  pdfRay _ _ _ _ := (pdfDisk r).map (fun pA => pdfSphere * pA)
  sampleDirection _ _ := .unsupported
  pdfDirection _ _ := none
  samplePosition _ _ := .unsupported
  pdfPosition _ _ := none
  sampleDirect us g _ :=
    let wo := sampleUniformSphere us.ud0 us.ud1
    rayOrFail (makeInfinite wo junk junk) wo Le (some (convertSAtoProjSA pdfSphere g (-wo)))
  pdfDirect g gL _ _ _ := some (convertSAtoProjSA pdfSphere g (-gL.wo))
  isSpecular := false
  isInfinite := true
  isConnectable := false
  eval _ _ _ := Le

/-! ### light::env, light_env.cpp -/

/-- std::atan2(y, x): the argument of x + iy (used at light_env.cpp:153-160, 194-200). -/
noncomputable def atan2 (y x : ℝ) : ℝ := Complex.arg ⟨x, y⟩

/-- x - floor(x) (used at light_env.cpp:153-160, 194-200). -/
noncomputable def frac (x : ℝ) : ℝ := x - ⌊x⌋

/-- The map coordinates of a direction d, light_env.cpp:153-160, 194-200. -/
noncomputable def envCoords (rot : ℝ) (d : V3 ℝ) : ℝ × ℝ :=
  let a := atan2 d.x d.z
  let at' := if a < 0 then a + 2 * Real.pi else a
  let t := (at' - rot) * (1 / 2) / Real.pi
  (frac t, Real.arccos d.y / Real.pi)

/-- The direction towards map coordinates (u, v), light_env.cpp:133-137 (wo points away from it). -/
noncomputable def envDir (rot u v : ℝ) : V3 ℝ :=
  let t := Real.pi * v
  let st := Real.sin t
  let p := 2 * Real.pi * u + rot
  ⟨st * Real.sin p, Real.cos t, st * Real.cos p⟩

/-- The weight of pixel i in construct, light_env.cpp:63-70; `lum i` is compMax of the scaled texel. -/
noncomputable def envWeight (lum : Nat → ℝ) (w h i : Nat) : ℝ := lum i * Real.sin (Real.pi * ((i : ℝ) / w + 1 / 2) / h)

/-- The weights passed to dist_.init, construct light_env.cpp:61-70. -/
noncomputable def envWeights (lum : Nat → ℝ) (w h : Nat) : List ℝ := (List.range (w * h)).map (envWeight lum w h)

/-- pdf_direct, light_env.cpp:151-167. -/
noncomputable def envPdfDirect (d2 : Dist.Dist2 ℝ) (rot : ℝ) (g gL : Geom) : Option ℝ :=
  let d := -gL.wo
  let uv := envCoords rot d
  let st := safeSqrt (1 - d.y * d.y)
  if st = 0 then some 0 else (Dist.pdf d2 uv.1 uv.2).map (fun p => convertSAtoProjSA (p / (2 * Real.pi * Real.pi * st)) g d)

/-- eval, light_env.cpp:192-201; `tex` is the (scaled) texture. -/
noncomputable def envEval (tex : ℝ → ℝ → V3 ℝ) (rot : ℝ) (g : Geom) : V3 ℝ :=
  let uv := envCoords rot (-g.wo)
  tex uv.1 uv.2

/-- light::env, light_env.cpp:26-203. -/
noncomputable def env (sgn : V3 ℝ → Bool) (junk : V3 ℝ) (tex : ℝ → ℝ → V3 ℝ) (d2 : Dist.Dist2 ℝ) (rot : ℝ) (c : V3 ℝ) (r : ℝ) : Light where
  sampleRay us _ :=
    let d := sampleUniformSphere us.ud0 us.ud1
    let g := makeInfinite d (diskPoint sgn c r d us) junk
    ray g d (envEval tex rot g) ((pdfDisk r).map (fun pA => pdfSphere * pA))
  pdfRay _ _ _ _ := (pdfDisk r).map (fun pA => pdfSphere * pA)
  sampleDirection _ _ := .unsupported
  pdfDirection _ _ := none
  samplePosition _ _ := .unsupported
  pdfPosition _ _ := none
  sampleDirect us g _ :=
    match Dist.sample2 d2 us.ud0 us.ud1 us.up0 us.up1 with
    | none => .undef
    | some q =>
      let wo := -envDir rot q.1 q.2
      let gL := makeInfinite wo junk junk
      rayOrFail gL wo (envEval tex rot gL) (envPdfDirect d2 rot g gL)
  pdfDirect g gL _ _ _ := envPdfDirect d2 rot g gL
  isSpecular := false
  isInfinite := true
  isConnectable := false
  eval g _ _ := envEval tex rot g

/-! ### camera::pinhole, camera_pinhole.cpp -/

/-- Members of camera::pinhole, camera_pinhole.cpp:48-63. -/
structure Camera where
  position : V3 ℝ
  u : V3 ℝ
  v : V3 ℝ
  w : V3 ℝ
  /-- half of the screen height at distance 1 -/
  tf : ℝ
  aspect : ℝ

/-- construct without "matrix", camera_pinhole.cpp:78-92. `tan vfov/2` is passed as tf. -/
noncomputable def lookAt (position center up : V3 ℝ) (tf aspect : ℝ) : Option Camera := do
  let w ← normalize (position - center)
  let u ← normalize (V3.cross up w)
  return ⟨position, u, V3.cross w u, w, tf, aspect⟩

/-- tf_ = tan(vfov · π / 180 / 2), camera_pinhole.cpp:91. -/
noncomputable def tfOf (vfov : ℝ) : ℝ := Real.tan (vfov * Real.pi / 180 * (1 / 2))

/-- to_eye * wo (camera_pinhole.cpp:98-106, 206-226). -/
def toEye (c : Camera) (d : V3 ℝ) : V3 ℝ := ⟨V3.dot c.u d, V3.dot c.v d, V3.dot c.w d⟩

/-- J, camera_pinhole.cpp:98-106. -/
noncomputable def camJ (c : Camera) (wo : V3 ℝ) : Option ℝ := do
  let inv ← divF 1 (-(toEye c wo).z)
  divF (inv * inv * inv) (c.tf * c.tf * c.aspect * 4)

/-- primary_ray, camera_pinhole.cpp:127-131. -/
noncomputable def primaryRay (c : Camera) (x y : ℝ) : Option (V3 ℝ) :=
  (normalize ⟨c.aspect * c.tf * (2 * x - 1), c.tf * (2 * y - 1), -1⟩ : Option (V3 ℝ)).map (fun d => d.x • c.u + d.y • c.v + d.z • c.w)

/-- raster_position, camera_pinhole.cpp:206-226. -/
noncomputable def rasterPosition (c : Camera) (wo : V3 ℝ) : Option (ℝ × ℝ) :=
  let e := toEye c wo
  if e.z ≥ 0 then none
  else
    let x := -e.x / e.z / c.tf / c.aspect * (1 / 2) + 1 / 2
    let y := -e.y / e.z / c.tf * (1 / 2) + 1 / 2
    if x < 0 ∨ x > 1 ∨ y < 0 ∨ y > 1 then none else some (x, y)

/-- sample_ray, camera_pinhole.cpp:133-139, and sample_direction, 149-154. -/
noncomputable def camSampleRay (c : Camera) (junk : V3 ℝ) (us : RayU) : Res :=
  match primaryRay c us.ud0 us.ud1 with
  | none => .undef
  | some d => .ok (makeDegenerated c.position junk) d (V3.all 1)

/-- pdf_direction, camera_pinhole.cpp:156-162; pdf_position is 1 (171-173), so this is pdf_ray as well (141-145). -/
noncomputable def camPdfDirection (c : Camera) (wo : V3 ℝ) : Option ℝ :=
  match rasterPosition c wo with
  | none => some 0
  | some _ => camJ c wo

/-- eval, camera_pinhole.cpp:232-237. -/
noncomputable def camEval (c : Camera) (wo : V3 ℝ) : Option (V3 ℝ) :=
  match rasterPosition c wo with
  | none => some (V3.all 0)
  | some _ => (camJ c wo).map V3.all

/-- pdf_direct, camera_pinhole.cpp:196-202. -/
noncomputable def camPdfDirect (g gE : Geom) : Option ℝ := if g.infinite then some 0 else overG 1 (geometryTerm g gE)

/-- sample_direct, camera_pinhole.cpp:177-194. -/
noncomputable def camSampleDirect (c : Camera) (junk : V3 ℝ) (g : Geom) : Res :=
  if g.infinite then .fail
  else match normalize (g.p - c.position) with
    | none => .undef
    | some wo => match camJ c wo with
      | none => .undef
      | some J =>
        let gE := makeDegenerated c.position junk
        rayOrFail gE wo (V3.all J) (camPdfDirect g gE)

end LM.Light
