import Verif.Model.Raycast
/-
  The ambient occlusion renderer of the examples and functional tests, example/custom_renderer.cpp:14-50 and functest/renderer_ao.cpp:10-46 (the same class).
  The random numbers of a call are a parameter: each pixel is rendered by one call (C17), which takes them from the generator of its thread. Exceptions as in Model/Raycast.
-/
namespace LM.Ao
open LM LM.Film LM.Surface LM.Material LM.Light LM.Path LM.Render LM.Accel LM.Scheduler LM.MathF

/-- scene->intersect({o, d}, tmin, tmax), scene.h:335. -/
abbrev Isect := V3 ℝ → V3 ℝ → ℝ → ℝ → Option SI

/-- One term of the sum, renderer_ao.cpp:37-39: sp is the point seen in direction d, u two random numbers. -/
noncomputable def term (I : Isect) (sp : SI) (d : V3 ℝ) (q : ℝ × ℝ) : ℝ :=
  let (n, u, v) := basisTwosided sp.geom (-d)
  let s := sampleCosineWeighted q.1 q.2
  match I sp.geom.p (s.x • u + s.y • v + s.z • n) Eps (1 / 5) with
  | some _ => 0
  | none => 1

/-- The loop over the samples, renderer_ao.cpp:35-40, from sample i with k samples left. -/
noncomputable def loopV (I : Isect) (sp : SI) (d : V3 ℝ) (rnd : ℕ → ℝ × ℝ) : ℕ → ℕ → ℝ → ℝ
  | _, 0, V => V
  | i, k + 1, V => loopV I sp d rnd (i + 1) k (V + term I sp d (rnd i))

/-- One call of the callback, renderer_ao.cpp:28-42: pixel and value, or nothing if the ray meets nothing. At infinity neither the position nor the normal is initialised (scene.cpp:329-331, surface.h:90-96). The division by spp (converted to a floating-point number) has no
    value if spp is 0. -/
noncomputable def call (W : World) (I : Isect) (spp : ℤ) (rnd : ℕ → ℝ × ℝ) (w h index : ℕ) : Out (Option ((ℕ × ℕ) × V3 ℝ)) :=
  let x := index % w
  let y := index / w
  match W.st.camera with
  | none => .throw
  | some n => match W.cameraAt n with
    | none => .undef
    | some cam => match primaryRay cam (((x : ℝ) + 1 / 2) / w) (((y : ℝ) + 1 / 2) / h) with
      | none => .undef
      | some d => match I cam.position d Eps Surface.Inf with
        | none => .ret none
        | some hit =>
          if hit.geom.infinite = true ∧ 0 < spp then .undef
          else if spp = 0 then .undef
          else .ret (some ((x, y), V3.all (loopV I hit d rnd 0 spp.toNat 0 / spp)))

/-- The calls in the order of the schedule, renderer_ao.cpp:26-43. -/
noncomputable def calls (W : World) (I : Isect) (spp : ℤ) (rnd : ℕ → ℕ → ℝ × ℝ) : Bitmap (V3 ℝ) → List ℕ → Out (Bitmap (V3 ℝ))
  | b, [] => .ret b
  | b, i :: is => match call W I spp (rnd i) b.w b.h i with
    | .undef => .undef
    | .throw => .throw
    | .ret none => calls W I spp rnd b is
    | .ret (some (p, C)) => match setPixel b p.1 p.2 C with
      | none => .undef
      | some b' => calls W I spp rnd b' is

/-- render, renderer_ao.cpp:24-45: the film is not cleared. -/
noncomputable def render (W : World) (I : Isect) (spp : ℤ) (rnd : ℕ → ℕ → ℝ × ℝ) (b : Bitmap (V3 ℝ)) (env : Env) (count : ℕ → ℕ) : Out (Bitmap (V3 ℝ)) :=
  calls W I spp rnd b (loop env 0 count (b.w * b.h)).calls

end LM.Ao
