import Verif.Model.AMap
/-
  Archive encoding of values: include/lm/serialtype.h:26-150 (cereal portable binary archive) and
  include/lm/serial.h:29-97 (optional, vec, mat, atomic).
-/
namespace LM.Archive

/-- Bytes, each < 256 (serialtype.h:26-66, the stream). -/
abbrev Bytes := List Nat

/-- Byte order of a machine (cereal::PortableBinary archives, serialtype.h:30, 65). -/
inductive Endian where
  | little | big
deriving DecidableEq, Repr

/-- Base-256 digits, least significant first (serialtype.h:120-150). -/
def toLE : Nat → Nat → Bytes
  | 0, _ => []
  | k + 1, x => (x % 256) :: toLE k (x / 256)

/-- Inverse of toLE (serialtype.h:120-150). -/
def ofLE : Bytes → Nat
  | [] => 0
  | b :: bs => b + 256 * ofLE bs

/-- Memory image of a k-byte arithmetic value on a machine (serialtype.h:120-150). -/
def toMem (e : Endian) (k x : Nat) : Bytes :=
  match e with | .little => toLE k x | .big => (toLE k x).reverse

/-- Value of a memory image on a machine (serialtype.h:120-150). -/
def ofMem (e : Endian) (bs : Bytes) : Nat :=
  match e with | .little => ofLE bs | .big => ofLE bs.reverse

/-- Serializable value kinds of the framework. `word k` is any k-byte arithmetic type given by its bit pattern: bool/uint8 (1), int/enum (4),
    long long/size tags/double (8), float (4); `arr n` is glm::vec (serial.h:61-66) and, nested, glm::mat by columns (serial.h:71-76);
    `opt` is std::optional (serial.h:29-54); `seq` is std::vector and, over `word 1`, std::string; `pair` is a structure with two members
    (nested for more); std::atomic<T> (serial.h:83-97) is transparent. -/
inductive Ty where
  | word (k : Nat)
  | arr (n : Nat) (t : Ty)
  | opt (t : Ty)
  | seq (t : Ty)
  | pair (t u : Ty)
deriving DecidableEq, Repr

/-- Values of a kind (serial.h:29-97, serialtype.h:120-150). -/
def Ty.den : Ty → Type
  | .word _ => Nat
  | .arr _ t => List t.den
  | .opt t => Option t.den
  | .seq t => List t.den
  | .pair t u => t.den × u.den

/-- Values that exist: words fit, arrays have their static length, sequences have a 64-bit size (serial.h:29-97, serialtype.h:120-150). -/
def Ty.Valid : (t : Ty) → t.den → Prop
  | .word k, (x : Nat) => x < 256 ^ k
  | .arr n t, (l : List t.den) => l.length = n ∧ ∀ x ∈ l, t.Valid x
  | .opt t, (o : Option t.den) => ∀ x ∈ o, t.Valid x
  | .seq t, (l : List t.den) => l.length < 256 ^ 8 ∧ ∀ x ∈ l, t.Valid x
  | .pair t u, p => t.Valid p.1 ∧ u.Valid p.2

/-- Saving on a machine of the given endianness; raw memory images are written (serialtype.h:125-133).
    optional: flag byte "nullopt" then data (serial.h:29-36); sequences: 8-byte size tag then elements (cereal/types/vector.hpp, string.hpp). -/
def enc (e : Endian) : (t : Ty) → t.den → Bytes
  | .word k, (x : Nat) => toMem e k x
  | .arr _ t, (l : List t.den) => l.flatMap (enc e t)
  | .opt t, (o : Option t.den) => match o with
    | none => toMem e 1 1
    | some x => toMem e 1 0 ++ enc e t x
  | .seq t, (l : List t.den) => toMem e 8 l.length ++ l.flatMap (enc e t)
  | .pair t u, p => enc e t p.1 ++ enc e u p.2

/-- Read k bytes, swap them if the archive was written with the other endianness (cereal PortableBinaryInputArchive::loadBinary),
    interpret them on this machine. `none` models the exception at the end of the stream (serialtype.h:153-179). -/
def decWord (e : Endian) (swap : Bool) (k : Nat) (bs : Bytes) : Option (Nat × Bytes) :=
  if bs.length < k then none
  else
    let raw := bs.take k
    some (ofMem e (if swap then raw.reverse else raw), bs.drop k)

/-- n elements one after the other (serial.h:61-76). -/
def decN {α : Type} (d : Bytes → Option (α × Bytes)) : Nat → Bytes → Option (List α × Bytes)
  | 0, bs => some ([], bs)
  | n + 1, bs =>
    match d bs with
    | none => none
    | some (x, bs') =>
      match decN d n bs' with
      | none => none
      | some (xs, bs'') => some (x :: xs, bs'')

/-- Loading (serial.h:41-54, 61-76, 91-97). -/
def dec (e : Endian) (swap : Bool) : (t : Ty) → Bytes → Option (t.den × Bytes)
  | .word k, bs => decWord e swap k bs
  | .arr n t, bs => decN (dec e swap t) n bs
  | .opt t, bs =>
    match decWord e swap 1 bs with
    | none => none
    | some (flag, bs') =>
      if flag ≠ 0 then some (none, bs')
      else match dec e swap t bs' with
        | none => none
        | some (x, bs'') => some (some x, bs'')
  | .seq t, bs =>
    match decWord e swap 8 bs with
    | none => none
    | some (n, bs') => decN (dec e swap t) n bs'
  | .pair t u, bs =>
    match dec e swap t bs with
    | none => none
    | some (x, bs') =>
      match dec e swap u bs' with
      | none => none
      | some (y, bs'') => some ((x, y), bs'')

/-- Archive start: the portable archive writes one byte telling its endianness (1 = little) (serialtype.h:30, 65). -/
def header : Endian → Bytes
  | .little => [1]
  | .big => [0]

/-- A file holding one value, as written by OutputArchive (serialtype.h:26-60). -/
def writeFile (w : Endian) (t : Ty) (v : t.den) : Bytes := header w ++ enc w t v

/-- Reading a file: header byte, then the value (serialtype.h:62-98). -/
def readFile (r : Endian) (t : Ty) : Bytes → Option (t.den × Bytes)
  | [] => none
  | h :: bs => dec r (decide (h ≠ (match r with | .little => 1 | .big => 0))) t bs

/-- Maps (std::unordered_map): size tag and key/value pairs in iteration order on saving; on loading the pairs are inserted one by one
    (cereal/types/concepts/pair_associative_container.hpp) (used at serial.h:25-97 and assetgroup.cpp:18-20). -/
def mapOfPairs {K V : Type} [DecidableEq K] (l : List (K × V)) : AMap K V := l.foldl (fun m e => m.insert e.1 e.2) []

end LM.Archive
