import Verif.Model.Light
import Verif.Model.Flatten
/-
  Construction of camera::pinhole and its view and projection matrices, src/camera/camera_pinhole.cpp:48-124. The functions of glm used there are modelled by their definitions in glm (right-handed coordinates, depth from -1 to 1:
  neither GLM_FORCE_LEFT_HANDED nor GLM_FORCE_DEPTH_ZERO_TO_ONE is defined by the project).
-/
namespace LM.CameraView
open LM LM.Material LM.Light LM.Accel

/-- Vec4, math.h:39. -/
@[ext] structure V4 where
  x : ℝ
  y : ℝ
  z : ℝ
  w : ℝ

/-- Mat4, math.h:42, by columns. -/
structure M4 where
  c0 : V4
  c1 : V4
  c2 : V4
  c3 : V4

/-- Product of a matrix and a vector (glm). -/
def M4.mul (m : M4) (v : V4) : V4 :=
  ⟨m.c0.x * v.x + m.c1.x * v.y + m.c2.x * v.z + m.c3.x * v.w, m.c0.y * v.x + m.c1.y * v.y + m.c2.y * v.z + m.c3.y * v.w,
   m.c0.z * v.x + m.c1.z * v.y + m.c2.z * v.z + m.c3.z * v.w, m.c0.w * v.x + m.c1.w * v.y + m.c2.w * v.z + m.c3.w * v.w⟩

/-- All members of camera::pinhole, camera_pinhole.cpp:50-58. -/
structure Pinhole extends Camera where
  center : V3 ℝ
  up : V3 ℝ
  vfov : ℝ

/-- The properties given to construct (none: missing), after conversion from JSON (json.h:47-88). -/
structure Props where
  matrix : Option M4
  position : Option (V3 ℝ)
  center : Option (V3 ℝ)
  up : Option (V3 ℝ)
  vfov : Option ℝ
  aspect : Option ℝ

/-- The first three components of a column. -/
def V4.xyz (v : V4) : V3 ℝ := ⟨v.x, v.y, v.z⟩

/-- The part of construct that sets position and basis, camera_pinhole.cpp:77-93; jc and ju are what the uninitialised center_ and up_ contain. Throw: a property is missing; undef: the look-at parameters give no basis. -/
noncomputable def frame (jc ju : V3 ℝ) (p : Props) : Out (V3 ℝ × V3 ℝ × V3 ℝ × V3 ℝ × V3 ℝ × V3 ℝ) :=
  match p.matrix with
  | some m => .ret (m.c3.xyz, -m.c0.xyz, m.c1.xyz, -m.c2.xyz, jc, ju)
  | none => match p.position with
    | none => .throw
    | some position => match p.center with
      | none => .throw
      | some center => match p.up with
        | none => .throw
        | some up => match normalize (position - center) with
          | none => .undef
          | some w => match normalize (V3.cross up w) with
            | none => .undef
            | some u => .ret (position, u, V3.cross w u, w, center, up)

/-- construct, camera_pinhole.cpp:76-97. -/
noncomputable def construct (jc ju : V3 ℝ) (p : Props) : Out Pinhole :=
  match frame jc ju p with
  | .throw => .throw
  | .undef => .undef
  | .ret (position, u, v, w, center, up) => match p.vfov with
    | none => .throw
    | some vfov => match p.aspect with
      | none => .throw
      | some aspect => .ret { position := position, u := u, v := v, w := w, tf := tfOf vfov, aspect := aspect, center := center, up := up, vfov := vfov }

/-- set_aspect_ratio, camera_pinhole.cpp:112-114. -/
def setAspectRatio (c : Pinhole) (aspect : ℝ) : Pinhole := { c with aspect := aspect }

/-- glm::lookAt(eye, center, up), right-handed; none: a normalized vector is zero. -/
noncomputable def glmLookAt (eye center up : V3 ℝ) : Option M4 :=
  match normalize (center - eye) with
  | none => none
  | some f => match normalize (V3.cross f up) with
    | none => none
    | some s =>
      let u := V3.cross s f
      some ⟨⟨s.x, u.x, -f.x, 0⟩, ⟨s.y, u.y, -f.y, 0⟩, ⟨s.z, u.z, -f.z, 0⟩, ⟨-V3.dot s eye, -V3.dot u eye, V3.dot f eye, 1⟩⟩

/-- glm::perspective(fovy, aspect, near, far), right-handed, depth from -1 to 1; none: division by zero. -/
noncomputable def glmPerspective (fovy aspect near far : ℝ) : Option M4 :=
  let t := Real.tan (fovy / 2)
  if aspect * t = 0 ∨ t = 0 ∨ far - near = 0 then none
  else some ⟨⟨1 / (aspect * t), 0, 0, 0⟩, ⟨0, 1 / t, 0, 0⟩, ⟨0, 0, -(far + near) / (far - near), -1⟩, ⟨0, 0, -(2 * far * near) / (far - near), 0⟩⟩

/-- view_matrix, camera_pinhole.cpp:118-120. -/
noncomputable def viewMatrix (c : Pinhole) : Option M4 := glmLookAt c.position (c.position - c.w) c.up

/-- projection_matrix, camera_pinhole.cpp:122-124; glm::radians multiplies by π/180. -/
noncomputable def projectionMatrix (c : Pinhole) : Option M4 := glmPerspective (c.vfov * (Real.pi / 180)) c.aspect (1 / 100) 10000

/-- What underlying_value writes, camera_pinhole.cpp:66-74, as properties of a JSON object: "eye", "center", "up", "vfov", "aspect". -/
def underlyingValue (c : Pinhole) : List (String × (V3 ℝ ⊕ ℝ)) := [("eye", .inl c.position), ("center", .inl c.center), ("up", .inl c.up), ("vfov", .inr c.vfov), ("aspect", .inr c.aspect)]

end LM.CameraView
