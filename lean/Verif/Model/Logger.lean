import Mathlib.Data.List.Basic
import Mathlib.Data.Int.Order.Basic
/-
  The default logger: src/logger.cpp, include/lm/logger.h.
  The header of a message (type, elapsed time, line and file) is an argument of each call. Colour escapes are not modelled. Messages are C strings: no NUL inside.
  Indentation is an unbounded integer (an int in the code).
-/
namespace LM.Log

/-- Strings (logger.cpp:50-171). -/
abbrev Text := List Char

/-- LogLevel::Progress, logger.h:80. -/
def progressLevel : Int := 100
/-- LogLevel::ProgressEnd, logger.h:88. -/
def progressEndLevel : Int := 100

/-- The members of LoggerContext_Default, logger.cpp:18-29. -/
structure Ctx where
  severity : Int
  indentation : Int := 0
  indentStr : Text := []

/-- The process: the global context (component.h:612-690), the two function-local statics of log (logger.cpp:92-93) and everything written to stdout. -/
structure St where
  ctx : Option Ctx := none
  maxLen : Nat := 0
  spaces : Text := []
  out : Text := []

/-- The calls of the log namespace, logger.cpp:183-213. -/
inductive Op
  | init
  | shutdown
  | setSeverity (n : Int)
  | updateIndentation (n : Int)
  | log (level severity : Int) (header message : Text)

/-- `std::getline(ss, s, '\n')` until it fails, logger.cpp:152-156; the first argument is the part of the line already read. -/
def getlines : Text → Text → List Text
  | acc, [] => if acc = [] then [] else [acc]
  | acc, c :: r => if c = '\n' then acc :: getlines [] r else getlines (acc ++ [c]) r

/-- process_line, logger.cpp:127-142. -/
def processLine (c : Ctx) (header line : Text) : Text := header ++ (c.indentStr ++ line) ++ ['\n']

/-- LoggerContext_Default::log, logger.cpp:50-159. -/
def ctxLog (s : St) (c : Ctx) (level severity : Int) (header message : Text) : St :=
  if c.severity > severity then s
  else if level = progressLevel ∨ level = progressEndLevel then
    let body := c.indentStr ++ message
    let len := header.length + body.length
    let spaces := if s.maxLen > len then List.replicate (s.maxLen - len) ' ' else s.spaces
    let maxLen := if s.maxLen > len then s.maxLen else len
    let out := s.out ++ (header ++ body ++ spaces ++ ['\r'])
    if level = progressEndLevel then { s with out := out, maxLen := 0, spaces := [] }
    else { s with out := out, maxLen := maxLen, spaces := spaces }
  else if message = [] then { s with out := s.out ++ processLine c header [] }
  else { s with out := s.out ++ (getlines [] message).flatMap (processLine c header) }

/-- LoggerContext_Default::update_indentation, logger.cpp:161-171. -/
def ctxIndent (c : Ctx) (n : Int) : Ctx :=
  let i := c.indentation + n
  if i > 0 then { c with indentation := i, indentStr := List.replicate (2 * i).toNat '.' ++ [' '] }
  else { c with indentation := 0, indentStr := [] }

/-- One call; `dflt` is the initial severity_ (logger.cpp:18-22: -100 in debug builds, 0 otherwise). -/
def step (dflt : Int) (s : St) : Op → St
  | .init => { s with ctx := some { severity := dflt } }
  | .shutdown => { s with ctx := none }
  | .setSeverity n => { s with ctx := s.ctx.map (fun c => { c with severity := n }) }
  | .updateIndentation n => { s with ctx := s.ctx.map (fun c => ctxIndent c n) }
  | .log level severity header message =>
    match s.ctx with
    | none => { s with out := s.out ++ (message ++ ['\n']) }
    | some c => ctxLog s c level severity header message

/-- A history of calls, oldest first (logger.cpp:50-171). -/
def run (dflt : Int) (ops : List Op) : St := ops.foldl (step dflt) {}

end LM.Log
