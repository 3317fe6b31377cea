import Verif.Model.Vec
import Mathlib.Algebra.Order.Floor.Ring
import Mathlib.Algebra.Order.Round
/-
  Textures: src/texture/texture_bitmap.cpp and src/texture/texture_constant.cpp.
  An image is its width, height, channel count and data. Reading outside the data, or an int computation outside the int range, is undefined behaviour: none.
  Arithmetic on coordinates is rounded by an arbitrary function `rnd`; floor is exact. The image decoder (stb_image) is not modelled.
-/
namespace LM.Texture
open LM

variable {K : Type} [Field K] [LinearOrder K] [IsStrictOrderedRing K] [FloorRing K]

/-- The members of Texture_Bitmap, texture_bitmap.cpp:33-36. -/
structure Bitmap (K : Type) where
  w : Int
  h : Int
  c : Int
  data : List K

/-- An int result: undefined outside the 32-bit range (used at texture_bitmap.cpp:57-89). -/
def i32 (z : Int) : Option Int := if -2 ^ 31 ≤ z ∧ z < 2 ^ 31 then some z else none

/-- data_[i]: undefined outside the vector (texture_bitmap.cpp:74, 79, 88). -/
def rd (d : List K) (i : Int) : Option K := if i < 0 then none else d[i.toNat]?

/-- int(v) of a floating-point number: truncation, undefined outside the int range (texture_bitmap.cpp:69, 71). -/
def trunc (v : K) : Option Int := i32 (if 0 ≤ v then ⌊v⌋ else ⌈v⌉)

/-- std::clamp(v, lo, hi): undefined if hi < lo (texture_bitmap.cpp:69, 71). -/
def clamp (v lo hi : Int) : Option Int := if hi < lo then none else some (if v < lo then lo else if hi < v then hi else v)

/-- One coordinate, texture_bitmap.cpp:69, 71: u = t - floor(t), clamp(int(u * n), 0, n - 1). -/
def coord (rnd : K → K) (t : K) (n : Int) : Option Int :=
  let u := rnd (t - (⌊t⌋ : K))
  (trunc (rnd (u * (n : K)))).bind fun v => (i32 (n - 1)).bind fun hi => clamp v 0 hi

/-- w_ * y + x, texture_bitmap.cpp:73, 78, 87. -/
def index (b : Bitmap K) (x y : Int) : Option Int := (i32 (b.w * y)).bind fun a => i32 (a + x)

/-- data_[c_*i+k], texture_bitmap.cpp:74, 79, 88. -/
def channel (b : Bitmap K) (i k : Int) : Option K := (i32 (b.c * i)).bind fun a => (i32 (a + k)).bind fun j => rd b.data j

/-- Vec3(data_[c_*i], data_[c_*i+1], data_[c_*i+2]), texture_bitmap.cpp:74, 79. -/
def color (b : Bitmap K) (i : Int) : Option (V3 K) :=
  (channel b i 0).bind fun r => (channel b i 1).bind fun g => (channel b i 2).bind fun bl => some ⟨r, g, bl⟩

/-- eval_by_pixel_coords, texture_bitmap.cpp:77-80. -/
def Bitmap.evalByPixelCoords (b : Bitmap K) (x y : Int) : Option (V3 K) := (index b x y).bind (color b)

/-- eval, texture_bitmap.cpp:68-75. -/
def Bitmap.eval (rnd : K → K) (b : Bitmap K) (t : K × K) : Option (V3 K) :=
  (coord rnd t.1 b.w).bind fun x => (coord rnd t.2 b.h).bind fun y => (index b x y).bind (color b)

/-- eval_alpha, texture_bitmap.cpp:82-89. -/
def Bitmap.evalAlpha (rnd : K → K) (b : Bitmap K) (t : K × K) : Option K :=
  (coord rnd t.1 b.w).bind fun x => (coord rnd t.2 b.h).bind fun y => (index b x y).bind fun i => channel b i 3

/-- has_alpha, texture_bitmap.cpp:91-93. -/
def Bitmap.hasAlpha (b : Bitmap K) : Bool := b.c = 4

/-- construct, texture_bitmap.cpp:57-65: `img` is what stbi_loadf returns, w * h * c values are copied. none: the load fails (an exception) or the size is not an int. -/
def Bitmap.construct (img : Option (Int × Int × Int × List K)) : Option (Bitmap K) :=
  img.bind fun (w, h, c, px) => (i32 (w * h)).bind fun a => (i32 (a * c)).bind fun n =>
    if n < 0 ∨ px.length < n.toNat then none else some ⟨w, h, c, px.take n.toNat⟩

/-- texture::constant, texture_constant.cpp:23-57. -/
structure Constant (K : Type) where
  color : V3 K
  alpha : Option K

/-- eval and eval_by_pixel_coords, texture_constant.cpp:43-49. -/
def Constant.eval (b : Constant K) (_ : K × K) : V3 K := b.color
/-- has_alpha, texture_constant.cpp:51-53. -/
def Constant.hasAlpha (b : Constant K) : Bool := b.alpha.isSome
/-- eval_alpha, texture_constant.cpp:55-57: dereferences the optional. -/
def Constant.evalAlpha (b : Constant K) (_ : K × K) : Option K := b.alpha

end LM.Texture
