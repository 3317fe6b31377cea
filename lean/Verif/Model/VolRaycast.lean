import Verif.Model.Raycast
import Verif.Model.Volume
/-
  The volume ray casting renderer, plugin/volume_openvdb/renderer_volraycast.cpp, and the volume it is used with, plugin/volume_openvdb/volume_openvdb.cpp.
  The OpenVDB loader is a parameter: the density it evaluates, its maximum, and the distances at which it calls the callback of a march. Its 32-bit coordinates are ℝ here.
-/
namespace LM.VolRaycast
open LM LM.Film LM.Surface LM.Material LM.Light LM.Path LM.Render LM.Accel

/-- What the renderer uses of a volume, volume.h:50-96: eval_scalar (none: throws Unimplemented), and the distances at which march calls the callback as long as it returns true, for origin, direction, tmin, tmax and
    step (none: throws Unimplemented). -/
structure Grid where
  scalar : V3 ℝ → Option ℝ
  march : V3 ℝ → V3 ℝ → ℝ → ℝ → ℝ → Option (List ℝ)

/-- Volumes of the library: none overrides march (volume.h:93-96, volume_constant.cpp, volume_gaussian.cpp, volume_sphere.cpp, volume_checker.cpp, volume_multi.cpp). -/
def ofVol (v : Volume.Vol) : Grid := ⟨v.evalScalar, fun _ _ _ _ _ => none⟩

/-- What is used of the OpenVDB loader after a file was loaded, volume_openvdb.cpp:52-95. -/
structure Vdb where
  eval : V3 ℝ → ℝ
  max : ℝ
  march : V3 ℝ → V3 ℝ → ℝ → ℝ → ℝ → List ℝ

/-- max_scalar of volume::openvdb_scalar, volume_openvdb.cpp:58, 65-67. -/
noncomputable def Vdb.maxScalar (l : Vdb) (scale : ℝ) : ℝ := l.max * scale

/-- volume::openvdb_scalar, volume_openvdb.cpp:73-95; march passes the callback on. -/
noncomputable def Vdb.grid (l : Vdb) (scale : ℝ) : Grid := ⟨fun p => some (l.eval p * scale), fun o d a b s => some (l.march o d a b s)⟩

/-- The members set by construct, renderer_volraycast.cpp:25-32. -/
structure Cfg where
  step : ℝ
  stepShadow : ℝ
  lightDir : V3 ℝ
  Le : V3 ℝ
  muA : V3 ℝ
  muS : V3 ℝ
  muT : V3 ℝ
  cutoff : ℝ

/-- construct, renderer_volraycast.cpp:36-53, without looking up the references; the arguments are the properties after filling in defaults. None: the light direction is zero and normalizing it gives NaN. -/
noncomputable def construct (step stepShadow : ℝ) (dir Le muA muS : V3 ℝ) (cutoff : ℝ) : Option Cfg :=
  (normalize dir).map (fun l => ⟨step, stepShadow, l, Le, muA, muS, muA + muS, cutoff⟩)

/-- glm::exp of a vector (renderer_volraycast.cpp:77). -/
noncomputable def expV (v : V3 ℝ) : V3 ℝ := ⟨Real.exp v.x, Real.exp v.y, Real.exp v.z⟩

/-- Quotient of vectors (renderer_volraycast.cpp:96); a zero denominator gives NaN or an infinity, here none. -/
noncomputable def divVV (a b : V3 ℝ) : Option (V3 ℝ) := do return ⟨← divF a.x b.x, ← divF a.y b.y, ← divF a.z b.z⟩

/-- A march over the given distances with a callback that changes s and says whether to go on (volume.h:72-96, volume_openvdb.cpp:82-95). -/
def along {σ : Type} (f : σ → ℝ → Out (σ × Bool)) : List ℝ → σ → Out σ
  | [], s => .ret s
  | t :: ts, s => match f s t with
    | .ret (s', true) => along f ts s'
    | .ret (s', false) => .ret s'
    | .throw => .throw
    | .undef => .undef

/-- The transmittance of one step at the point p, renderer_volraycast.cpp:74-77, 84-87; none: eval_scalar throws. -/
noncomputable def stepT (c : Cfg) (g : Grid) (step : ℝ) (p : V3 ℝ) : Option (V3 ℝ) := (g.scalar p).map (fun density => expV (-(step • (density • c.muT))))

open Classical in
/-- The callback of the shadow march from p, renderer_volraycast.cpp:83-93. -/
noncomputable def shadowStep (c : Cfg) (g : Grid) (p : V3 ℝ) (Tr : V3 ℝ) (t : ℝ) : Out (V3 ℝ × Bool) :=
  match stepT c g c.stepShadow (p + t • c.lightDir) with
  | none => .throw
  | some T => .ret (Tr * T, !decide (V3.dot (Tr * T) (Tr * T) < c.cutoff))

/-- Tr_shadow after the march, renderer_volraycast.cpp:81-93. -/
noncomputable def shadow (c : Cfg) (g : Grid) (p : V3 ℝ) : Out (V3 ℝ) :=
  match g.march p c.lightDir Eps Surface.Inf c.stepShadow with
  | none => .throw
  | some ts => along (shadowStep c g p) ts ⟨1, 1, 1⟩

open Classical in
/-- The callback of the primary march, renderer_volraycast.cpp:72-104; the state is (L, Tr). -/
noncomputable def mainStep (c : Cfg) (g : Grid) (o d : V3 ℝ) (s : V3 ℝ × V3 ℝ) (t : ℝ) : Out ((V3 ℝ × V3 ℝ) × Bool) :=
  match stepT c g c.step (o + t • d) with
  | none => .throw
  | some T => match shadow c g (o + t • d) with
    | .throw => .throw
    | .undef => .undef
    | .ret S => match divVV c.muS c.muT with
      | none => .undef
      | some a => .ret ((s.1 + a * c.Le * s.2 * S * (⟨1, 1, 1⟩ - T), s.2 * T), !decide (V3.dot (s.2 * T) (s.2 * T) < c.cutoff))

/-- L for one primary ray, renderer_volraycast.cpp:69-104. -/
noncomputable def radiance (c : Cfg) (g : Grid) (o d : V3 ℝ) : Out (V3 ℝ) :=
  match g.march o d Eps Surface.Inf c.step with
  | none => .throw
  | some ts => match along (mainStep c g o d) ts (0, ⟨1, 1, 1⟩) with
    | .throw => .throw
    | .undef => .undef
    | .ret s => .ret s.1

/-- One call of the callback: pixel coordinates and value, renderer_volraycast.cpp:62-108; path::primary_ray is path.h:55-58. -/
noncomputable def cast (W : World) (g : Grid) (c : Cfg) (w h index : ℕ) : Out ((ℕ × ℕ) × V3 ℝ) :=
  let x := index % w
  let y := index / w
  match W.st.camera with
  | none => .throw
  | some n => match W.cameraAt n with
    | none => .undef
    | some cam => match primaryRay cam (((x : ℝ) + 1 / 2) / w) (((y : ℝ) + 1 / 2) / h) with
      | none => .undef
      | some d => match radiance c g cam.position d with
        | .undef => .undef
        | .throw => .throw
        | .ret C => .ret ((x, y), C)

/-- The calls in the order of the schedule, each ending in set_pixel, renderer_volraycast.cpp:62-108. -/
noncomputable def casts (W : World) (g : Grid) (c : Cfg) : Bitmap (V3 ℝ) → List ℕ → Out (Bitmap (V3 ℝ))
  | b, [] => .ret b
  | b, i :: is => match cast W g c b.w b.h i with
    | .undef => .undef
    | .throw => .throw
    | .ret (p, C) => match setPixel b p.1 p.2 C with
      | none => .undef
      | some b' => casts W g c b' is

/-- render, renderer_volraycast.cpp:57-111: clear, one call per pixel (the scheduler of lines 48-52 has one sample per pixel). An exception thrown by a call is rethrown after the parallel loop (C18). -/
noncomputable def render (W : World) (g : Grid) (c : Cfg) (b : Bitmap (V3 ℝ)) (run : ℕ × List (ℕ × ℕ)) : Out (Bitmap (V3 ℝ)) := casts W g c (clear b) (run.2.map Prod.fst)

end LM.VolRaycast
