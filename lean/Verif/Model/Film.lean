import Verif.Model.Vec
import Verif.Model.Ext
import Mathlib.Algebra.Order.Floor.Defs
import Mathlib.Algebra.Order.Floor.Ring
import Mathlib.Data.Rat.Floor
/-
  Film: include/lm/film.h, src/film/film_bitmap.cpp.
-/
namespace LM.Film

/-! ### Atomic pixel updates (AtomicWrapper, film_bitmap.cpp:20-55) -/

/-- A pending operation on cell `px`: replace the current value v by `f v` (film_bitmap.cpp:41-54). -/
structure Op (V : Type) where
  px : Nat
  f : V → V

/-- AtomicWrapper::add (film_bitmap.cpp:46-49), used by splat_pixel (236-238) and accum. -/
def addOp {V : Type} [Add V] (px : Nat) (v : V) : Op V := ⟨px, fun c => c + v⟩
/-- AtomicWrapper::update (film_bitmap.cpp:41-44), used by set_pixel (152-154). -/
def setOp {V : Type} (px : Nat) (v : V) : Op V := ⟨px, fun _ => v⟩
/-- AtomicWrapper::update_with_func (film_bitmap.cpp:51-54), used by update_pixel (240-242). -/
def funcOp {V : Type} (px : Nat) (g : V → V) : Op V := ⟨px, g⟩

/-- A thread: operations still to be done and the local variable `expected` of the operation under way (film_bitmap.cpp:41-54). -/
structure Th (V : Type) where
  todo : List (Op V)
  loaded : Option V

/-- The cells and the threads, film_bitmap.cpp:20-55. -/
structure Mem (V : Type) where
  cell : Nat → V
  th : Nat → Th V
  log : List (Nat × Op V)   -- observed: completed operations (thread, operation) in completion order

/-- Function update (film_bitmap.cpp:41-54). -/
def setF {α : Type} (f : Nat → α) (i : Nat) (x : α) : Nat → α := fun j => if j = i then x else f j

/-- One atomic step of thread `t`: the initial load, or one compare_exchange_weak, which may fail spuriously.
    The comparison is equality of the stored value (bitwise in C++). A failed exchange reloads `expected` (film_bitmap.cpp:41-54). -/
def casStep {V : Type} [DecidableEq V] (m : Mem V) (c : Nat × Bool) : Mem V :=
  let t := c.1
  match (m.th t).todo with
  | [] => m
  | op :: rest =>
    match (m.th t).loaded with
    | none => { m with th := setF m.th t ⟨op :: rest, some (m.cell op.px)⟩ }
    | some e =>
      if c.2 = false ∧ m.cell op.px = e then
        { cell := setF m.cell op.px (op.f e), th := setF m.th t ⟨rest, none⟩, log := m.log ++ [(t, op)] }
      else { m with th := setF m.th t ⟨op :: rest, some (m.cell op.px)⟩ }

/-- Any sequence of steps, film_bitmap.cpp:41-54. -/
def casRun {V : Type} [DecidableEq V] (m : Mem V) (sched : List (Nat × Bool)) : Mem V := sched.foldl casStep m

/-- Threads about to perform `ops t` on the initial cells (film_bitmap.cpp:41-54). -/
def casInit {V : Type} (cell : Nat → V) (ops : Nat → List (Op V)) : Mem V := ⟨cell, fun t => ⟨ops t, none⟩, []⟩

/-! ### Raster to pixel (film.h:166-171) -/

section Raster
variable {K : Type} [Field K] [LinearOrder K] [IsStrictOrderedRing K] [FloorRing K]

/-- Conversion of a floating point value to int: truncation; undefined (none) outside the range of int (used at film.h:166-171). -/
def toInt (x : K) : Option Int :=
  let i := if 0 ≤ x then ⌊x⌋ else ⌈x⌉
  if -(2:Int)^31 ≤ i ∧ i < (2:Int)^31 then some i else none

/-- glm::clamp(x, lo, hi) = min(max(x, lo), hi) (used at film.h:166-171). -/
def clampI (x lo hi : Int) : Int := min (max x lo) hi

/-- One coordinate of raster_to_pixel (film.h:166-171). -/
def rasterCoord (r : K) (w : Nat) : Option Int := (toInt (r * (w : K))).map (fun i => clampI i 0 ((w : Int) - 1))

/-- raster_to_pixel, film.h:166-171. -/
def rasterToPixel (rx ry : K) (w h : Nat) : Option (Int × Int) := do
  let x ← rasterCoord rx w
  let y ← rasterCoord ry h
  return (x, y)
end Raster

/-! ### Sequential film (film_bitmap.cpp:121-252) -/

/-- w_, h_, data_ (film_bitmap.cpp:123-126). Sizes are natural numbers (the code: int, overflow of w_*h_ not modelled). -/
structure Bitmap (V : Type) where
  w : Nat
  h : Nat
  data : List V

section Seq
variable {K : Type} [Field K]

/-- construct, film_bitmap.cpp:137-142; `data_.assign(w_*h_, {})`. -/
def construct (w h : Nat) : Bitmap (V3 K) := ⟨w, h, List.replicate (w * h) 0⟩
/-- Element access data_[i]; none: out of bounds (undefined) (film_bitmap.cpp:152-154, 236-242). -/
def modifyAt {V : Type} (d : List V) (i : Nat) (f : V → V) : Option (List V) := if i < d.length then some (d.modify i f) else none
/-- set_pixel, film_bitmap.cpp:152-154. -/
def setPixel {V : Type} (b : Bitmap V) (x y : Nat) (v : V) : Option (Bitmap V) := (modifyAt b.data (y * b.w + x) (fun _ => v)).map (fun d => { b with data := d })
/-- splat_pixel, film_bitmap.cpp:236-238. -/
def splatPixel (b : Bitmap (V3 K)) (x y : Nat) (v : V3 K) : Option (Bitmap (V3 K)) := (modifyAt b.data (y * b.w + x) (fun c => c + v)).map (fun d => { b with data := d })
/-- update_pixel, film_bitmap.cpp:240-242. -/
def updatePixel {V : Type} (b : Bitmap V) (x y : Nat) (g : V → V) : Option (Bitmap V) := (modifyAt b.data (y * b.w + x) g).map (fun d => { b with data := d })
/-- inc_ave, film.h:180-184. -/
def incAve (b : Bitmap (V3 K)) (x y index : Nat) (v : V3 K) : Option (Bitmap (V3 K)) :=
  updatePixel b x y (fun curr => curr + ((index : K) + 1)⁻¹ • (v - curr))
/-- rescale, film_bitmap.cpp:244-248: the order in which the parallel loop runs the indices is `order`. -/
def rescale (b : Bitmap (V3 K)) (s : K) (order : List Nat) : Option (Bitmap (V3 K)) :=
  (order.foldlM (fun d i => modifyAt d i (fun c => s • c)) b.data).map (fun d => { b with data := d })
/-- clear, film_bitmap.cpp:250-252. -/
def clear (b : Bitmap (V3 K)) : Bitmap (V3 K) := { b with data := List.replicate (b.w * b.h) 0 }
/-- accum, film_bitmap.cpp:220-234 (same film class): sizes are compared, then a loop over all pixels. Result: whether it was accepted, and the film. -/
def accum (b o : Bitmap (V3 K)) : Option (Bool × Bitmap (V3 K)) :=
  if b.w ≠ o.w ∨ b.h ≠ o.h then some (false, b)
  else ((List.range (b.w * b.h)).foldlM (fun d i => (o.data[i]?).bind (fun v => modifyAt d i (fun c => c + v))) b.data).map (fun d => (true, { b with data := d }))
end Seq

/-! ### Export (film_bitmap.cpp:212-218, 255-274) -/

/-- v[i] of a Vec3 (used at film_bitmap.cpp:255-274). -/
def chan {F : Type} (v : V3 F) : Nat → F
  | 0 => v.x | 1 => v.y | _ => v.z

/-- The loop nest of copy (film_bitmap.cpp:257-261), as the list of (y, x, i) in loop order. -/
def loopNest (w h : Nat) : List (Nat × Nat × Nat) :=
  (List.range h).flatMap (fun y => (List.range w).flatMap (fun x => (List.range 3).map (fun i => (y, x, i))))

/-- copy<T>(flip), film_bitmap.cpp:255-274: `conv` is the conversion of one channel value (none: undefined conversion), `zero` the initial content. -/
def copy {F T : Type} (conv : F → Option T) (zero : T) (b : Bitmap (V3 F)) (flip : Bool) : Option (List T) :=
  (loopNest b.w b.h).foldlM (fun (v : List T) (p : Nat × Nat × Nat) => do
    let yy := if flip then b.h - p.1 - 1 else p.1
    let px ← b.data[p.1 * b.w + p.2.1]?
    let c ← conv (chan px p.2.2)
    modifyAt v (3 * (yy * b.w + p.2.1) + p.2.2) (fun _ => c)) (List.replicate (b.w * b.h * 3) zero)

/-- buffer(), film_bitmap.cpp:212-218: address of the first component of a copy of the data (none: empty film, out of bounds access). -/
def buffer {F : Type} (b : Bitmap (V3 F)) : Option (List F) :=
  if b.data = [] then none else some (b.data.flatMap (fun v => [v.x, v.y, v.z]))

/-! ### Saving (film_bitmap.cpp:84-105, 156-210) -/

/-- std::filesystem::path::extension().string() on a path with '/' separators (used at film_bitmap.cpp:156-210). -/
def extension (path : List Char) : List Char :=
  let name := (path.reverse.takeWhile (· ≠ '/')).reverse
  if name = ['.'] ∨ name = ['.', '.'] then []
  else
    let after := (name.reverse.takeWhile (· ≠ '.')).reverse
    -- no dot, or only a leading dot: no extension
    if after.length + 1 < name.length then '.' :: after else []

/-- sanityCheck, film_bitmap.cpp:84-105: the loop from index i with the number of invalid entries found so far; result: that number.
    `d[i]` out of bounds is undefined (none). -/
def sanityLoop (n : Nat) (d : List EF) : (fuel i invalid : Nat) → Option Nat
  | 0, _, invalid => some invalid
  | fuel + 1, i, invalid =>
    if i < n then do
      let v ← d[i]?
      let invalid := if v.isNan then invalid + 1 else if v.isInf then invalid + 1 else invalid
      if invalid ≥ 10 then some invalid else sanityLoop n d fuel (i + 1) invalid
    else some invalid

/-- sanityCheck(w, h, d): whether an invalid pixel was found (and a warning printed for it) (film_bitmap.cpp:84-105). -/
def sanityCheck (w h : Nat) (d : List EF) : Option Bool := (sanityLoop (w * h) d (w * h) 0 0).map (fun n => decide (n > 0))

/-- What save writes, film_bitmap.cpp:156-210. -/
inductive Written where
  | png (w h : Nat) (d : List Nat)
  | hdr (w h : Nat) (d : List EF)
  | pfm (w h : Nat) (d : List EF)

/-- Outcomes of save, film_bitmap.cpp:156-210. -/
structure SaveResult where
  ok : Bool
  written : Option Written
  warned : Bool

/-- Conversion of one channel to a byte for .png (film_bitmap.cpp:265-268): pow(t, 1/2.2) is `pw`. int() of a non-finite or too large value is undefined. -/
def toByte (pw : EF → EF) (t : EF) : Option Nat :=
  match pw t with
  | .fin q => (toInt (256 * q)).map (fun i => (clampI i 0 255).toNat)
  | _ => none

/-- save, film_bitmap.cpp:156-210. `dirOk`: the parent directory exists or could be created; `writeOk`: the encoder wrote the file; `toF`: conversion double→float. -/
def save (pw : EF → EF) (toF : EF → EF) (dirOk writeOk : Bool) (b : Bitmap (V3 EF)) (path : List Char) : Option SaveResult :=
  if dirOk = false then some ⟨false, none, false⟩
  else if extension path = ".png".toList then do
    let d ← copy (toByte pw) 0 b true
    if writeOk then return ⟨true, some (.png b.w b.h d), false⟩ else return ⟨false, none, false⟩
  else if extension path = ".hdr".toList then do
    let d ← copy (fun x => some (toF x)) (.fin 0) b true
    let warned ← sanityCheck b.w b.h d
    if writeOk then return ⟨true, some (.hdr b.w b.h d), warned⟩ else return ⟨false, none, warned⟩
  else if extension path = ".pfm".toList then do
    let d ← copy (fun x => some (toF x)) (.fin 0) b false
    let warned ← sanityCheck b.w b.h d
    if writeOk then return ⟨true, some (.pfm b.w b.h d), warned⟩ else return ⟨false, none, warned⟩
  else some ⟨false, none, false⟩

end LM.Film
