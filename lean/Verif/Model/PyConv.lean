import Verif.Model.AMap
import Mathlib.Data.List.Lex
import Mathlib.Order.Defs.LinearOrder
import Mathlib.Data.Char
import Mathlib.Tactic.Ring
/-
  Conversion of values between Python and C++, include/lm/pylm.h:14-285 (type casters of pybind11 for JSON values and for vectors and matrices of glm).
-/
namespace LM.PyConv
open LM

/-- Keys of a Python dict: str, bytes, or anything else. -/
inductive Key where
  | str (s : Str)
  | bytes (b : Str)
  | other

/-- Python values, as far as the casters distinguish them (pylm.h:33-88). F: floating point numbers. Strings and bytes are lists of characters (valid UTF-8). seq: any other object with the sequence protocol (tuple, range, NumPy array).
    comp: an instance of a class bound by pybind11 that is a component with the given locator; bound: an instance of another bound class; other: any other object (set, complex, scalar of NumPy that is not a float, ...). Cyclic structures are not modelled. -/
inductive Py (F : Type) where
  | none
  | bool (b : Bool)
  | float (x : F)
  | int (n : ℤ)
  | str (s : Str)
  | bytes (b : List (Fin 256))
  | list (l : List (Py F))
  | seq (l : List (Py F))
  | dict (d : List (Key × Py F))
  | comp (loc : Str)
  | bound
  | other

/-- lm::Json, jsontype.h:30-39, with the kinds of numbers that the library distinguishes; the members of an object are the items of a std::map in the order of the keys. Discarded values (they only occur in parser callbacks) are not modelled. -/
inductive Js (F : Type) where
  | null
  | bool (b : Bool)
  | float (x : F)
  | int (n : ℤ)
  | uint (n : ℕ)
  | str (s : Str)
  | arr (a : List (Js F))
  | obj (o : List (Str × Js F))

/-- Outcome of load: a value, false (pybind11 reports a TypeError), an exception, a failed assertion (debug builds), undefined behaviour. -/
inductive Out (α : Type) where
  | ok (a : α)
  | reject
  | throw
  | abort
  | undef
  deriving DecidableEq

variable {F : Type}

/-- std::map::emplace: an existing item is kept. -/
def emplace (k : Str) (v : Js F) : List (Str × Js F) → List (Str × Js F)
  | [] => [(k, v)]
  | (k', v') :: r => if k < k' then (k, v) :: (k', v') :: r else if k = k' then (k', v') :: r else (k', v') :: emplace k v r

/-- kconv.load, pylm.h:54: the string caster of pybind11 takes str and bytes. -/
def Key.load : Key → Option Str
  | .str s => some s
  | .bytes b => some b
  | .other => Option.none

/-- The values of a C++ int. -/
def IsInt (n : ℤ) : Prop := -2 ^ 31 ≤ n ∧ n < 2 ^ 31

instance (n : ℤ) : Decidable (IsInt n) := inferInstanceAs (Decidable (_ ∧ _))

mutual
/-- load, pylm.h:26-90, in convert mode. src.cast<int> throws cast_error if the number is not an int. LM_UNREACHABLE is an assertion (common.h:185), so without it false is returned. For instances of bound classes the instance is taken for a component
    (pylm.h:77-84). -/
def load (debug : Bool) : Py F → Out (Js F)
  | .none => .ok .null
  | .bool b => .ok (.bool b)
  | .float x => .ok (.float x)
  | .int n => if IsInt n then .ok (.int n) else .throw
  | .str s => .ok (.str s)
  | .dict d => loadItems debug [] d
  | .bytes b => .ok (.arr (b.map fun (n : Fin 256) => .int (n : ℕ)))
  | .list l => loadSeq debug [] l
  | .seq l => loadSeq debug [] l
  | .comp loc => .ok (.str loc)
  | .bound => .undef
  | .other => if debug then .abort else .reject
/-- The loop over the items of a dict, pylm.h:48-61. -/
def loadItems (debug : Bool) (value : List (Str × Js F)) : List (Key × Py F) → Out (Js F)
  | [] => .ok (.obj value)
  | (k, x) :: r => match k.load with
    | Option.none => .reject
    | some k => match load debug x with
      | .ok v => loadItems debug (emplace k v value) r
      | .reject => .reject
      | .throw => .throw
      | .abort => .abort
      | .undef => .undef
/-- The loop over the elements of a sequence, pylm.h:62-72. -/
def loadSeq (debug : Bool) (value : List (Js F)) : List (Py F) → Out (Js F)
  | [] => .ok (.arr value)
  | x :: r => match load debug x with
    | .ok v => loadSeq debug (value ++ [v]) r
    | .reject => .reject
    | .throw => .throw
    | .abort => .abort
    | .undef => .undef
end

/-- get<int>() of a JSON number: static_cast from a 64 bit number to int, pylm.h:109, 157; conversion modulo 2^32. -/
def toInt (n : ℤ) : ℤ := (n + 2 ^ 31) % 2 ^ 32 - 2 ^ 31

mutual
/-- cast, pylm.h:94-151. The keys of an object are distinct, so the assignments d[k] = v append. -/
def cast : Js F → Py F
  | .null => .none
  | .bool b => .bool b
  | .float x => .float x
  | .int n => .int (toInt n)
  | .uint n => .int (toInt n)
  | .str s => .str s
  | .obj o => .dict (castItems o)
  | .arr a => .list (castSeq a)
/-- The loop over the members of an object, pylm.h:118-127. -/
def castItems : List (Str × Js F) → List (Key × Py F)
  | [] => []
  | (k, v) :: r => (.str k, cast v) :: castItems r
/-- The loop over the elements of an array, pylm.h:134-141. -/
def castSeq : List (Js F) → List (Py F)
  | [] => []
  | v :: r => cast v :: castSeq r
end

/-! ### Vectors and matrices -/

/-- A NumPy array. Positions in memory are counted in elements; mem: none outside of the allocation. -/
structure NdArray (T : Type) where
  mem : ℤ → Option T
  base : ℤ
  shape : List ℕ
  strides : List ℤ
  /-- The element type is the one of the vector or matrix. -/
  dtype : Bool

/-- Arguments of functions that take a vector or a matrix. -/
inductive Arg (T : Type) where
  | array (a : NdArray T)
  | other

open Classical in
/-- memcpy of n elements from the start of the data; undef: outside of the allocation. -/
noncomputable def copy {T : Type} (a : NdArray T) (n : ℕ) : Out (Fin n → T) :=
  if h : ∀ i : Fin n, ∃ x, a.mem (a.base + (i : ℕ)) = some x then .ok fun i => (h i).choose else .undef

/-- load for glm::vec, pylm.h:175-201. array::ensure does not make the array contiguous. -/
noncomputable def loadVec {T : Type} (n : ℕ) : Arg T → Out (Fin n → T)
  | .other => .reject
  | .array a => if a.dtype = false then .reject else if a.shape.length ≠ 1 then .reject else copy a n

/-- cast for glm::vec, pylm.h:204-221. -/
def castVec {T : Type} {n : ℕ} (v : Fin n → T) : NdArray T :=
  ⟨fun i => if h : 0 ≤ i ∧ i.toNat < n then some (v ⟨i.toNat, h.2⟩) else none, 0, [n], [1], true⟩

/-- load for glm::mat with as many rows as columns (Mat3, Mat4), pylm.h:233-263: the matrix by columns, m c r. The copied values are transposed (pylm.h:260). -/
noncomputable def loadMat {T : Type} (n : ℕ) : Arg T → Out (Fin n → Fin n → T)
  | .other => .reject
  | .array a => if a.dtype = false then .reject else if a.shape.length ≠ 2 then .reject else
    match copy a (n * n) with
    | .ok f => .ok fun c r => f ⟨r * n + c, by
        have h1 : (r : ℕ) * n + n ≤ n * n := by
          have : ((r : ℕ) + 1) * n ≤ n * n := Nat.mul_le_mul_right n r.isLt
          rwa [Nat.add_mul, Nat.one_mul] at this
        have := c.isLt
        omega⟩
    | .reject => .reject
    | .throw => .throw
    | .abort => .abort
    | .undef => .undef

/-- cast for glm::mat with as many rows as columns, pylm.h:266-284: a copy of the transposed matrix, column by column. -/
def castMat {T : Type} {n : ℕ} (m : Fin n → Fin n → T) : NdArray T :=
  ⟨fun i => if h : 0 ≤ i ∧ i.toNat < n * n then
      (have hn : 0 < n := Nat.pos_of_ne_zero fun e => by simp [e] at h
       some (m ⟨i.toNat % n, Nat.mod_lt _ hn⟩ ⟨i.toNat / n, Nat.div_lt_of_lt_mul h.2⟩))
    else none, 0, [n, n], [n, 1], true⟩

end LM.PyConv
