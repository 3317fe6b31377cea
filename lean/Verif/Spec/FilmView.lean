import Verif.Model.FilmView
import Verif.Props.C23_Film
/-
  Specification of the image array (C104), in terms of what a Python program sees.
-/
namespace LM.FilmView
open LM.Film

variable {K : Type}

/-- The array shows an image: it has one row per row of the image, one column per column and three components, element [y, x, c] is component c of pixel (x, y),
    and every other index is refused. -/
def Shows (sf : Nat) (s : World K) (v : View) (b : Bitmap (V3 K)) : Prop :=
  v.w = b.w ∧ v.h = b.h ∧
  (∀ y x c, y < b.h → x < b.w → c < 3 → ∃ px, pixel b x y = some px ∧ read sf s v y x c = .val (chan px c)) ∧
  ∀ y x c, ¬ (y < b.h ∧ x < b.w ∧ c < 3) → read sf s v y x c = .indexError

/-- A saved film that is loaded has as many pixels as its size says: every file that save() wrote has (C44). -/
def Consistent : Cmd K → Prop
  | .edit _ (.load b) => b.data.length = b.w * b.h
  | _ => True

/-- Calls that have nothing to do with an array taken from film `f` in memory `block`: anything on other films, any change of the film's own pixels or size,
    and writing through arrays that live in other memory. Not: buffer(), deletion or replacement of this film. -/
def Leaves (f block : Nat) : Cmd K → Prop
  | .create g _ _ => g ≠ f
  | .destroy g => g ≠ f
  | .edit _ _ => True
  | .buffer g => g ≠ f
  | .write v _ _ _ _ => v.block ≠ block

/-- Calls after which film `f` is still there and has at most `n` pixels, if it had before. buffer() is among them, and so is writing through arrays. -/
def AtMost (n f : Nat) : Cmd K → Prop
  | .create g _ _ => g ≠ f
  | .destroy g => g ≠ f
  | .edit g (.construct w h) => g = f → w * h ≤ n
  | .edit g (.load b) => g = f → b.w * b.h ≤ n
  | _ => True

end LM.FilmView
