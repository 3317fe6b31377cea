import Verif.Model.Film
import Verif.Model.Scheduler
import Mathlib.Algebra.Order.Archimedean.Real.Basic
import Mathlib.Data.Real.Archimedean
/-
  Accumulation and normalisation of the renderers: renderer_pt.cpp:82-110, 299, 307-312 (pixel and image mode), renderer_lt.cpp:49-56, 168-173, renderer_bdpt.cpp:66-74, 119-123, 195-199, renderer_volpt.cpp:58-66, 183-187.
  What one sample adds to the film is an argument (see Model/Renderer.lean). film_->splat is atomic per pixel (C22), so the calls are taken in the order of the schedule.
-/
namespace LM.RenderFilm
open LM LM.Film

/-- Splats of one sample: raster position and contribution (renderer_pt.cpp:82-110, 299). -/
abbrev Splats := List ((ℝ × ℝ) × V3 ℝ)

/-- `window`, renderer_pt.cpp:96-107: (x, y, w, h) of the raster window of a sample. -/
noncomputable def window (pixelMode : Bool) (w h index : ℕ) : ℝ × ℝ × ℝ × ℝ :=
  if pixelMode then
    let x := index % w
    let y := index / w
    let dx := 1 / (w : ℝ)
    let dy := 1 / (h : ℝ)
    (dx * x, dy * y, dx, dy)
  else (0, 0, 1, 1)

/-- `ud`, renderer_pt.cpp:198-199. -/
noncomputable def primaryU (win : ℝ × ℝ × ℝ × ℝ) (u0 u1 : ℝ) : ℝ × ℝ := (win.1 + win.2.2.1 * u0, win.2.1 + win.2.2.2 * u1)

/-- Film::splat, film.h:202-205: the pixel of the raster position, then splat_pixel. -/
noncomputable def splatAt (b : Bitmap (V3 ℝ)) (s : (ℝ × ℝ) × V3 ℝ) : Option (Bitmap (V3 ℝ)) := do
  let (x, y) ← rasterToPixel s.1.1 s.1.2 b.w b.h
  splatPixel b x.toNat y.toNat s.2

/-- The factor of film_->rescale: 1 / processed in pixel mode, w h / processed otherwise; none: division by zero (renderer_pt.cpp:307-312, renderer_lt.cpp:168-173). -/
noncomputable def factor (pixelMode : Bool) (w h processed : ℕ) : Option ℝ :=
  if processed = 0 then none else some (if pixelMode then 1 / (processed : ℝ) else ((w * h : ℕ) : ℝ) / processed)

/-- render(): clear, one call of the sample function per scheduled (pixel, sample), rescale (whose parallel loop visits the pixels in the order `order`) (renderer_pt.cpp:82-312, renderer_lt.cpp:49-173). -/
noncomputable def renderFilm (b : Bitmap (V3 ℝ)) (pixelMode : Bool) (run : ℕ × List (ℕ × ℕ)) (sample : ℕ → ℕ → Splats) (order : List ℕ) : Option (Bitmap (V3 ℝ)) := do
  let b' ← run.2.foldlM (fun b c => (sample c.1 c.2).foldlM splatAt b) (clear b)
  let k ← factor pixelMode b.w b.h run.1
  rescale b' k order

end LM.RenderFilm
