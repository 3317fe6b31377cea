import Mathlib.Algebra.Order.Field.Rat
import Mathlib.Algebra.BigOperators.Group.List.Basic
/-
  Random numbers: Rng, include/lm/math.h:200-290 (std::mt19937 and std::uniform_real_distribution<double>), and the generators of the renderers:
  `thread_local Rng rng(seed_ ? *seed_ + threadid : math::rng_seed())` (renderer_pt.cpp:91, renderer_lt.cpp:59, renderer_volpt.cpp:71, 208, renderer_bdpt.cpp:76, 140, 218, 341, renderer_bdptopt.cpp:482).
-/
namespace LM.Rng

/-- std::mt19937: the last n = 624 words of the sequence, oldest first ([rand.eng.mers]) (std::mt19937, math.h:206). -/
abbrev Mt := List ℕ

/-- eng_.seed(value): X_0 = value mod 2^32, X_i = (1812433253 (X_{i-1} xor (X_{i-1} >> 30)) + i) mod 2^32. `words k i x` are k words from X_i = x on (math.h:206-218). -/
def words : ℕ → ℕ → ℕ → List ℕ
  | 0, _, _ => []
  | k + 1, i, x => x :: words k (i + 1) ((1812433253 * (x ^^^ (x >>> 30)) + (i + 1)) % 2 ^ 32)

/-- Rng(int seed), math.h:216-218, 233, 250. The seed is converted to a word. -/
def seed (s : ℕ) : Mt := words 624 0 (s % 2 ^ 32)

/-- Tempering of an output word (math.h:206-218). -/
def temper (x : ℕ) : ℕ :=
  let x := x ^^^ (x >>> 11)
  let x := x ^^^ (((x <<< 7) % 2 ^ 32) &&& 0x9d2c5680)
  let x := x ^^^ (((x <<< 15) % 2 ^ 32) &&& 0xefc60000)
  x ^^^ (x >>> 18)

/-- One transition of the engine: X_{i} = X_{i-227} xor ((Y >> 1) xor (a if Y odd)), Y = upper bit of X_{i-624} and lower 31 bits of X_{i-623}. A state without enough words does not occur (none) (math.h:206-218). -/
def word (m : Mt) : Option (ℕ × Mt) :=
  match m, m[397]? with
  | x0 :: x1 :: rest, some xm =>
    let y := (x0 &&& 0x80000000) ||| (x1 &&& 0x7fffffff)
    let x := xm ^^^ ((y >>> 1) ^^^ (if y % 2 = 1 then 0x9908b0df else 0))
    some (temper x, (x1 :: rest) ++ [x])
  | _, _ => none

/-- RngImplBase::u, math.h:219: std::generate_canonical<double, 53> takes two words; without rounding. -/
def u (m : Mt) : Option (ℚ × Mt) := do
  let (a, m) ← word m
  let (b, m) ← word m
  return (((a : ℚ) + b * 2 ^ 32) / 2 ^ 64, m)

/-- next<T>() for k numbers, math.h:237-245. -/
def next : ℕ → Mt → Option (List ℚ × Mt)
  | 0, m => some ([], m)
  | k + 1, m => do
    let (x, m) ← u m
    let (xs, m) ← next k m
    return (x :: xs, m)

/-- RngImpl<float>::u, math.h:262-270: `cast` is static_cast<float>, `pred` is nextafter towards -infinity. -/
def uFloat (cast pred : ℚ → ℚ) (rd : ℚ) : ℚ := if cast rd > rd then pred (cast rd) else cast rd

/-! ### The generators of a renderer -/

/-- One call of the process callback: thread, pixel and sample index (renderer_pt.cpp:90). -/
structure Ev where
  thread : ℕ
  pixel : ℕ
  sample : ℕ

/-- The thread-local generators of one renderer class, for the whole life of the threads: none before the first use on that thread (renderer_pt.cpp:91, renderer_lt.cpp:59, renderer_volpt.cpp:71, 208, renderer_bdpt.cpp:76, 140, 218, 341, renderer_bdptopt.cpp:482). -/
abbrev Slots := ℕ → Option Mt

/-- The generator a call uses: the existing one, or a new one from the seed or from std::random_device (`device`) (renderer_pt.cpp:91). -/
def generator (sd : Option ℕ) (device : ℕ → ℕ) (slots : Slots) (t : ℕ) : Mt :=
  match slots t with
  | some m => m
  | none => seed (match sd with
    | some s => s + t
    | none => device t)

variable {A : Type}

/-- One call: `body` is the rest of the callback, a contribution to the image and the generator it leaves behind (renderer_pt.cpp:90-302). -/
def call (sd : Option ℕ) (device : ℕ → ℕ) (body : ℕ → ℕ → Mt → A × Mt) (slots : Slots) (e : Ev) : A × Slots :=
  let r := body e.pixel e.sample (generator sd device slots e.thread)
  (r.1, fun t => if t = e.thread then some r.2 else slots t)

/-- The calls of one render, in the order of the schedule (renderer_pt.cpp:89-303). -/
def calls (sd : Option ℕ) (device : ℕ → ℕ) (body : ℕ → ℕ → Mt → A × Mt) : Slots → List Ev → List A × Slots
  | slots, [] => ([], slots)
  | slots, e :: es =>
    let r := call sd device body slots e
    let rest := calls sd device body r.2 es
    (r.1 :: rest.1, rest.2)

/-- render(): film_->clear(), the calls, and the accumulated image (renderer_pt.cpp:80-312). -/
def render [AddCommMonoid A] (sd : Option ℕ) (device : ℕ → ℕ) (body : ℕ → ℕ → Mt → A × Mt) (slots : Slots) (es : List Ev) : A × Slots :=
  let r := calls sd device body slots es
  (r.1.sum, r.2)

end LM.Rng
