import Verif.Model.Locator
/-
  JSON property helpers: include/lm/json.h:37-290. Objects are association maps (nlohmann::json: std::map, keys distinct).
-/
namespace LM.Json
open LM.Locator (Comp Res)

/-- JSON values (nlohmann::json), as used by json.h:37-290. -/
inductive Json (N : Type) where
  | null
  | bool (b : Bool)
  | num (x : N)
  | str (s : Str)
  | arr (a : List (Json N))
  | obj (o : List (Str × Json N))

/-- Outcomes: value, exception (InvalidArgument of the framework or type_error of the library), undefined behaviour (json.h:37-290). -/
inductive Out (α : Type) where
  | ok (a : α)
  | invalid       -- LM_THROW_EXCEPTION(Error::InvalidArgument, ...)
  | missing       -- InvalidArgument "Missing property"
  | typeError     -- nlohmann::json::type_error
  | ub            -- out-of-range operator[] on a const array
  | throws        -- exception from component lookup
deriving DecidableEq, Repr

variable {N : Type} [Zero N] [One N]

/-- Conversion to an arithmetic type: numbers and booleans, otherwise type_error (nlohmann get_arithmetic_value) (used at json.h:37-290). -/
def toNum : Json N → Out N
  | .num x => .ok x
  | .bool b => .ok (if b then 1 else 0)
  | _ => .typeError

/-- `j[i]` on a const array without range check (used at json.h:37-150). -/
def at? (a : List (Json N)) (i : Nat) : Out (Json N) :=
  match a[i]? with
  | some x => .ok x
  | none => .ub

/-- Reading `n` indices given by `f` in order (json.h:37-150). -/
def readAll (a : List (Json N)) (f : Nat → Nat) : Nat → Out (List N)
  | 0 => .ok []
  | k + 1 =>
    match readAll a f k with
    | .ok xs =>
      match at? a (f k) with
      | .ok j =>
        match toNum j with
        | .ok x => .ok (xs ++ [x])
        | .typeError => .typeError
        | _ => .ub
      | _ => .ub
    | e => e

/-- to_json of glm::vec<N> (json.h:40-46). -/
def vecToJson (v : List N) : Json N := .arr (v.map .num)

/-- from_json of glm::vec<N> (json.h:47-59). -/
def vecFromJson (n : Nat) (j : Json N) : Out (List N) :=
  match j with
  | .arr a => if a.length ≠ n then .invalid else readAll a id n
  | _ => .invalid

/-- One matrix column: writes a[i*R+j] for j < R (json.h:69-71). -/
def writeCol (R : Nat) (v : Nat → Nat → N) (i : Nat) (a : List N) : List N :=
  (List.range R).foldl (fun a j => a.set (i * R + j) (v i j)) a

/-- to_json of glm::mat<C,R>, `v i j` = column i, row j (json.h:66-74). -/
def matToJson (C R : Nat) (v : Nat → Nat → N) : Json N :=
  .arr (((List.range C).foldl (fun a i => writeCol R v i a) (List.replicate (C * R) 0)).map .num)

/-- One column read back: j < R reads json[i*R+j] (json.h:84-86). -/
def readCols (R : Nat) (a : List (Json N)) : Nat → Out (List (List N))
  | 0 => .ok []
  | i + 1 =>
    match readCols R a i with
    | .ok cs =>
      match readAll a (fun j => i * R + j) R with
      | .ok c => .ok (cs ++ [c])
      | .typeError => .typeError
      | _ => .ub
    | e => e

/-- from_json of glm::mat<C,R>: list of columns (json.h:75-88). -/
def matFromJson (C R : Nat) (j : Json N) : Out (List (List N)) :=
  match j with
  | .arr a => if a.length ≠ C * R then .invalid else readCols R a C
  | _ => .invalid

/-- `j.find(name)`; `end()` for values that are not objects (used at json.h:180-290). -/
def find (j : Json N) (name : Str) : Option (Json N) :=
  match j with
  | .obj o => AMap.find? o name
  | _ => none

/-- merge(j1, j2) (json.h:150-161); `none` when an assertion fails. -/
def merge (j1 j2 : Json N) : Option (Json N) :=
  match j1, j2 with
  | .obj o1, .obj o2 =>
    some (.obj (o2.foldl (fun (t : AMap Str (Json N)) e => if (AMap.find? t e.1).isSome then t else AMap.insert t e.1 e.2) o1))
  | _, _ => none

/-- value<T>(j, name) (json.h:192-198). -/
def value {T : Type} (conv : Json N → Out T) (j : Json N) (name : Str) : Out T :=
  match find j name with
  | some x => conv x
  | none => .missing

/-- value<T>(j, name, def) (json.h:206-212). -/
def valueOr {T : Type} (conv : Json N → Out T) (j : Json N) (name : Str) (d : T) : Out T :=
  match find j name with
  | some x => conv x
  | none => .ok d

/-- value_or_none<T>(j, name) (json.h:283-290). -/
def valueOrNone {T : Type} (conv : Json N → Out T) (j : Json N) (name : Str) : Out (Option T) :=
  match find j name with
  | some x =>
    match conv x with
    | .ok v => .ok (some v)
    | .invalid => .invalid
    | .missing => .missing
    | .typeError => .typeError
    | .ub => .ub
    | .throws => .throws
  | none => .ok none

/-- comp_ref<T> (json.h:225-240). `cast` is the dynamic_cast to T in comp::get<T>. -/
def compRef (root : Option Comp) (cast : Comp → Bool) (j : Json N) (name : Str) : Out Comp :=
  match find j name with
  | none => .missing
  | some (.str ref) =>
    match Locator.get root ref with
    | .found c => if cast c then .ok c else .invalid
    | .null => .invalid
    | .throws => .throws
  | some _ => .invalid

/-- comp_ref_or_nullptr<T> (json.h:253-271). -/
def compRefOrNull (root : Option Comp) (cast : Comp → Bool) (j : Json N) (name : Str) : Out (Option Comp) :=
  match find j name with
  | none => .ok none
  | some (.str ref) =>
    if ref.isEmpty then .ok none
    else match Locator.get root ref with
      | .found c => if cast c then .ok (some c) else .ok none
      | .null => .ok none
      | .throws => .throws
  | some _ => .ok none

end LM.Json
