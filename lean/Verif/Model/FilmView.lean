import Verif.Model.Film
/-
  The image array a Python program gets from a film: Film_Bitmap::buffer (film_bitmap.cpp:212-218), FilmBuffer (film.h:40-44) and its buffer protocol
  (pylm.cpp:445-459). The array is a view of memory that belongs to the film: the vector data_temp_ (film_bitmap.cpp:127).
-/
namespace LM.FilmView
open LM.Film

/-- std::vector<Vec3> data_temp_ (film_bitmap.cpp:127): the block of memory it owns (none: nothing allocated yet), how many elements fit and how many there are. -/
structure Temp where
  block : Option Nat
  cap : Nat
  len : Nat

/-- A bitmap film: w_, h_, data_ and data_temp_ (film_bitmap.cpp:123-127). -/
structure Film (K : Type) where
  bmp : Bitmap (V3 K)
  temp : Temp

/-- Memory: the blocks that are allocated, each a list of floating point cells (none: not written yet), and the next block to be handed out.
    Simplification: a freed block is never handed out again, so that using one is always visible as such (std::vector, film_bitmap.cpp:127). -/
structure Heap (K : Type) where
  block : Nat → Option (List (Option K))
  next : Nat

/-- The films that exist and the memory of their temporary buffers (film_bitmap.cpp:121-127). -/
structure World (K : Type) where
  film : Nat → Option (Film K)
  heap : Heap K

/-- No films yet (film_bitmap.cpp:121-127). -/
def init (K : Type) : World K := ⟨fun _ => none, ⟨fun _ => none, 0⟩⟩

/-- What buffer() returns: FilmBuffer (film.h:40-44). `block` is where `data` points: the beginning of that block. -/
structure View where
  w : Nat
  h : Nat
  block : Nat

/-- A copy of a Vec3 written at element `i` of a block (film_bitmap.cpp:215). -/
def put {K : Type} (cells : List (Option K)) (i : Nat) (v : V3 K) : List (Option K) :=
  ((cells.set (3 * i) (some v.x)).set (3 * i + 1) (some v.y)).set (3 * i + 2) (some v.z)

/-- The memory a vector owns: nothing, or its block (film_bitmap.cpp:127); none: the block is gone. -/
def owned {K : Type} (t : Temp) (m : Heap K) : Option (List (Option K)) :=
  match t.block with
  | none => some []
  | some b => m.block b

/-- The vector gives its block back (film_bitmap.cpp:127). -/
def free {K : Type} (t : Temp) (m : Heap K) : Heap K :=
  match t.block with
  | none => m
  | some b => { m with block := setF m.block b none }

/-- data_temp_.push_back(v) (film_bitmap.cpp:215). With room left the value goes behind the last element. Without, a larger block is allocated
    (`grow` is the growth policy of the standard library), the elements are moved there, and the old block is freed. none: memory that is not there. -/
def push {K : Type} (grow : Nat → Nat) (s : Temp × Heap K) (v : V3 K) : Option (Temp × Heap K) :=
  let t := s.1
  let m := s.2
  if t.len < t.cap then do
    let b ← t.block
    let cells ← m.block b
    some ({ t with len := t.len + 1 }, { m with block := setF m.block b (some (put cells t.len v)) })
  else do
    let old ← owned t m
    let cells := old.take (3 * t.len) ++ List.replicate (3 * (grow t.len - t.len)) none
    some (⟨some m.next, grow t.len, t.len + 1⟩, ⟨setF (free t m).block m.next (some (put cells t.len v)), m.next + 1⟩)

/-- buffer(), film_bitmap.cpp:212-218: data_temp_.clear(), one push_back per pixel, and the address of the first element
    (none: there is no first element, or memory that is not there). -/
def bufferFilm {K : Type} (grow : Nat → Nat) (f : Film K) (m : Heap K) : Option (View × Film K × Heap K) := do
  let (t, m') ← f.bmp.data.foldlM (push grow) ({ f.temp with len := 0 }, m)
  if t.len = 0 then none
  else do
    let b ← t.block
    some (⟨f.bmp.w, f.bmp.h, b⟩, { f with temp := t }, m')

/-- What else can happen to a film: its own functions (film_bitmap.cpp:137-154, 220-252) and a load of a saved film (129-131: w_, h_, data_; not data_temp_). -/
inductive Edit (K : Type) where
  | construct (w h : Nat)
  | load (b : Bitmap (V3 K))
  | setPixel (x y : Nat) (v : V3 K)
  | splatPixel (x y : Nat) (v : V3 K)
  | updatePixel (x y : Nat) (g : V3 K → V3 K)
  | rescale (s : K)
  | clear
  | accum (other : Nat)

/-- The bitmap after one of these (film_bitmap.cpp:137-154, 220-252); none: access out of bounds. Simplification: the loop of rescale runs in index order
    (C25_rescale: the order does not matter). -/
def edit {K : Type} [Field K] (s : World K) (b : Bitmap (V3 K)) : Edit K → Option (Bitmap (V3 K))
  | .construct w h => some (Film.construct w h)
  | .load b' => some b'
  | .setPixel x y v => Film.setPixel b x y v
  | .splatPixel x y v => Film.splatPixel b x y v
  | .updatePixel x y g => Film.updatePixel b x y g
  | .rescale k => Film.rescale b k (List.range (b.w * b.h))
  | .clear => some (Film.clear b)
  | .accum o => (s.film o).bind (fun f => (Film.accum b f.bmp).map (·.2))

/-- ~Film_Bitmap(): the vector frees its block (film_bitmap.cpp:121-127). -/
def release {K : Type} (f : Film K) (m : Heap K) : Heap K := free f.temp m

/-- The element of an array that indices y, x, c address: the shape {h, w, 3} bounds them, and the strides {3 w sizeof(Float), 3 sizeof(Float), sizeof(Float)}
    give the distance in bytes from `data` (pylm.cpp:449-458). `sf` is sizeof(Float), and the result is a byte offset; none: Python raises IndexError. -/
def offset (sf : Nat) (v : View) (y x c : Nat) : Option Nat :=
  if y < v.h ∧ x < v.w ∧ c < 3 then some (y * (3 * v.w * sf) + x * (3 * sf) + c * sf) else none

/-- Outcomes of reading an element of an array (pylm.cpp:447-459). -/
inductive Read (K : Type) where
  | indexError
  | undef
  | val (a : K)

/-- The cell at a byte offset of a block (pylm.cpp:447-459); none: freed memory, behind the end, not written yet, or between two cells. -/
def cellAt {K : Type} (sf : Nat) (m : Heap K) (b off : Nat) : Option K :=
  if off % sf = 0 then (m.block b).bind (fun cells => (cells[off / sf]?).bind id) else none

/-- a[y, x, c] for an array made from a FilmBuffer (pylm.cpp:447-459). -/
def read {K : Type} (sf : Nat) (s : World K) (v : View) (y x c : Nat) : Read K :=
  match offset sf v y x c with
  | none => .indexError
  | some off =>
    match cellAt sf s.heap v.block off with
    | none => .undef
    | some a => .val a

/-- a[y, x, c] = value: the buffer is writable (pylm.cpp:449-458, the default of buffer_info). None: memory that is not there. -/
def write {K : Type} (sf : Nat) (s : World K) (v : View) (y x c : Nat) (a : K) : Option (World K) :=
  match offset sf v y x c with
  | none => some s       -- IndexError is raised, nothing is written
  | some off =>
    if off % sf = 0 then do
      let cells ← s.heap.block v.block
      if off / sf < cells.length then some { s with heap := { s.heap with block := setF s.heap.block v.block (some (cells.set (off / sf) (some a))) } } else none
    else none

/-- What a program does with films and arrays (film_bitmap.cpp:121-252, pylm.cpp:445-510). `create` on a name in use replaces the film, as load_film does. -/
inductive Cmd (K : Type) where
  | create (f w h : Nat)
  | destroy (f : Nat)
  | edit (f : Nat) (e : Edit K)
  | buffer (f : Nat)
  | write (v : View) (y x c : Nat) (a : K)

/-- One call (film_bitmap.cpp:121-252, pylm.cpp:445-510); none: undefined behaviour. A call on a film that does not exist is one. -/
def step {K : Type} [Field K] (grow : Nat → Nat) (sf : Nat) (s : World K) : Cmd K → Option (World K)
  | .create f w h =>
    let m := match s.film f with
      | none => s.heap
      | some o => release o s.heap
    some ⟨setF s.film f (some ⟨Film.construct w h, ⟨none, 0, 0⟩⟩), m⟩
  | .destroy f => (s.film f).map (fun o => ⟨setF s.film f none, release o s.heap⟩)
  | .edit f e => do
    let o ← s.film f
    let b ← edit s o.bmp e
    some { s with film := setF s.film f (some { o with bmp := b }) }
  | .buffer f => do
    let o ← s.film f
    let (_, o', m) ← bufferFilm grow o s.heap
    some ⟨setF s.film f (some o'), m⟩
  | .write v y x c a => write sf s v y x c a

/-- A history of calls (film_bitmap.cpp:121-252, pylm.cpp:445-510). -/
def run {K : Type} [Field K] (grow : Nat → Nat) (sf : Nat) (s : World K) (cmds : List (Cmd K)) : Option (World K) := cmds.foldlM (step grow sf) s

/-- buffer() on film `f` with the FilmBuffer it returns (pylm.cpp:505). -/
def take {K : Type} (grow : Nat → Nat) (s : World K) (f : Nat) : Option (View × World K) := do
  let o ← s.film f
  let (v, o', m) ← bufferFilm grow o s.heap
  some (v, ⟨setF s.film f (some o'), m⟩)

end LM.FilmView
