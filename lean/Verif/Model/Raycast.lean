import Verif.Model.RenderFilm
import Verif.Model.Renderer
import Verif.Model.Flatten
/-
  The ray casting renderer, src/renderer/renderer_raycast.cpp. Ray queries are the record `Query`.
  An exception thrown by one call of the callback is rethrown after the parallel loop (C18); here the first outcome that is not a return is the outcome of the whole call.
-/
namespace LM.Raycast
open LM LM.Film LM.Surface LM.Material LM.Light LM.Path LM.Render LM.Accel

/-- The properties of the renderer, renderer_raycast.cpp:23-26, 50-53. -/
structure Cfg where
  bg : V3 ℝ
  constant : Bool
  normals : Bool
  color : Option (V3 ℝ)

/-- glm::abs of a vector (renderer_raycast.cpp:80). -/
def absV (v : V3 ℝ) : V3 ℝ := ⟨|v.x|, |v.y|, |v.z|⟩

/-- path::reflectance, path.h:787-794: throws for anything but a surface interaction. -/
noncomputable def reflectance (W : World) (sp : SI) : Out (V3 ℝ) :=
  match sp.kind with
  | .surface => match W.materialAt sp.primitive with
    | none => .undef
    | some m => .ret (m.reflectance sp.geom)
  | _ => .throw

/-- `color_ ? *color_ : path::reflectance(scene_, *sp)`, renderer_raycast.cpp:90. -/
noncomputable def baseColor (W : World) (c : Cfg) (sp : SI) : Out (V3 ℝ) :=
  match c.color with
  | some C => .ret C
  | none => reflectance W sp

/-- `.2_f + .8_f*glm::abs(glm::dot(sp->geom.n, -ray.d))`, renderer_raycast.cpp:93. -/
noncomputable def facing (n d : V3 ℝ) : ℝ := 1 / 5 + 4 / 5 * |V3.dot n (-d)|

/-- The colour of a ray with direction d that meets `sp`, renderer_raycast.cpp:75-97. The normal of a point at infinity is never initialised (surface.h:90-96). -/
noncomputable def shade (W : World) (c : Cfg) (d : V3 ℝ) : Option SI → Out (V3 ℝ)
  | none => .ret c.bg
  | some sp =>
    if c.normals then (if sp.geom.infinite then .undef else .ret (absV sp.geom.n))
    else if sp.geom.infinite then
      match W.lightAt sp.primitive with
      | none => .undef
      | some L => .ret (L.eval sp.geom sp.geom.wo false)
    else
      match baseColor W c sp with
      | .undef => .undef
      | .throw => .throw
      | .ret R => .ret (if c.constant then R else facing sp.geom.n d • R)

/-- One call of the callback: pixel coordinates and colour, renderer_raycast.cpp:71-97; path::primary_ray is path.h:56-59. -/
noncomputable def cast (W : World) (Q : Query) (c : Cfg) (w h index : ℕ) : Out ((ℕ × ℕ) × V3 ℝ) :=
  let x := index % w
  let y := index / w
  match W.st.camera with
  | none => .throw
  | some n => match W.cameraAt n with
    | none => .undef
    | some cam => match primaryRay cam (((x : ℝ) + 1 / 2) / w) (((y : ℝ) + 1 / 2) / h) with
      | none => .undef
      | some d => match shade W c d (Q.isect cam.position d) with
        | .undef => .undef
        | .throw => .throw
        | .ret C => .ret ((x, y), C)

/-- The calls in the order of the schedule, each ending in set_pixel, renderer_raycast.cpp:70-98. -/
noncomputable def casts (W : World) (Q : Query) (c : Cfg) : Bitmap (V3 ℝ) → List ℕ → Out (Bitmap (V3 ℝ))
  | b, [] => .ret b
  | b, i :: is => match cast W Q c b.w b.h i with
    | .undef => .undef
    | .throw => .throw
    | .ret (p, C) => match setPixel b p.1 p.2 C with
      | none => .undef
      | some b' => casts W Q c b' is

/-- render, renderer_raycast.cpp:62-101: the checks of scene.h:248-281 (`accel`: an acceleration structure is set), clear, one call per pixel. The scheduler has one sample per pixel (55-59). -/
noncomputable def render (W : World) (Q : Query) (c : Cfg) (accel : Bool) (b : Bitmap (V3 ℝ)) (run : ℕ × List (ℕ × ℕ)) : Out (Bitmap (V3 ℝ)) :=
  if ¬ W.st.nodes.length > 1 then .throw
  else if accel = false then .throw
  else if W.st.camera = none then .throw
  else casts W Q c (clear b) (run.2.map Prod.fst)

end LM.Raycast
