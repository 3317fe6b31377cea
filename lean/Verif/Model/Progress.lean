import Mathlib.Data.Int.Order.Basic
import Mathlib.Data.Rat.Defs
/-
  Progress contexts: src/progress.cpp. Clock readings are integers (nanoseconds), one per call of high_resolution_clock::now(); Float is ℚ.
-/
namespace LM.Progress

/-- ProgressMode, include/lm/progress.h:47-50. -/
inductive Mode | samples | time
deriving DecidableEq

/-- The calls of a progress context, include/lm/progresscontext.h:30-33. -/
inductive Call
  | start (mode : Mode) (total : Int) (totalTime : ℚ)
  | update (processed : Int)
  | updateTime (elapsed : ℚ)
  | fin
deriving DecidableEq

/-- duration_cast<milliseconds> of a duration in nanoseconds (progress.cpp:76-83, 137-153). -/
def ms (d : Int) : Int := d.tdiv 1000000

/-! ### Trees of contexts -/

mutual
/-- A configured context: progress::mux (progress.cpp:18-49), progress::delay (progress.cpp:56-97; delay_ in ms, last_updated_, ctx_), or any other context, known by an id. -/
inductive Tree
  | leaf (id : Nat)
  | mux (ts : Forest)
  | delay (d last : Int) (t : Tree)
/-- ctx_ of a mux (progress.cpp:18-31). -/
inductive Forest
  | nil
  | cons (t : Tree) (ts : Forest)
end

mutual
/-- One call, reading the clock `clk` at positions from k on: new context, next position, the calls the leaves receive in order. Mux: progress.cpp:33-47. Delay: start progress.cpp:70-74, update 76-83, update_time 85-92, end 94-96. -/
def Tree.call (clk : Nat → Int) (c : Call) : Tree → Nat → Tree × Nat × List (Nat × Call)
  | .leaf i, k => (.leaf i, k, [(i, c)])
  | .mux ts, k => let r := Forest.call clk c ts k; (.mux r.1, r.2.1, r.2.2)
  | .delay d last t, k =>
    match c with
    | .start _ _ _ => let r := Tree.call clk c t (k + 1); (.delay d (clk k) r.1, r.2.1, r.2.2)
    | .fin => let r := Tree.call clk c t k; (.delay d last r.1, r.2.1, r.2.2)
    | _ =>
      if ms (clk k - last) > d then let r := Tree.call clk c t (k + 1); (.delay d (clk k) r.1, r.2.1, r.2.2)
      else (.delay d last t, k + 1, [])
/-- The loops of the mux (progress.cpp:33-47). -/
def Forest.call (clk : Nat → Int) (c : Call) : Forest → Nat → Forest × Nat × List (Nat × Call)
  | .nil, k => (.nil, k, [])
  | .cons t ts, k =>
    let r := Tree.call clk c t k
    let q := Forest.call clk c ts r.2.1
    (.cons r.1 q.1, q.2.1, r.2.2 ++ q.2.2)
end

/-- A history of calls: everything the leaves receive (progress.cpp:18-97). -/
def Tree.calls (clk : Nat → Int) : Tree → Nat → List Call → Tree × Nat × List (Nat × Call)
  | t, k, [] => (t, k, [])
  | t, k, c :: cs =>
    let r := t.call clk c k
    let q := Tree.calls clk r.1 r.2.1 cs
    (q.1, q.2.1, r.2.2 ++ q.2.2)

/-! ### The delayed context, as a filter on calls with their clock readings -/

/-- One call at time `now` of progress::delay, progress.cpp:70-96: new last_updated_, and the forwarded call. -/
def delayStep (d last now : Int) (c : Call) : Int × List Call :=
  match c with
  | .start _ _ _ => (now, [c])
  | .fin => (last, [c])
  | _ => if ms (now - last) > d then (now, [c]) else (last, [])

/-- A history; the forwarded calls with the time of forwarding. last_updated_ starts at the epoch (progress.cpp:56-97). -/
def delayRun (d : Int) : List (Int × Call) → Int × List (Int × Call) :=
  List.foldl (fun s e => let r := delayStep d s.1 e.1 e.2; (r.1, s.2 ++ r.2.map (fun c => (e.1, c)))) (0, [])

/-! ### The default context, progress.cpp:104-176 -/

/-- The members, progress.cpp:106-110. -/
structure Default where
  mode : Mode
  total : Int
  totalTime : ℚ
  start : Int
  last : Int

/-- What is reported to the logger: progress.cpp:131-135, 149-153, 159. -/
inductive Report
  | samples (processed total : Int) (percent : ℚ) (eta : Option Int)
  | time (elapsed total percent eta : ℚ)
  | completed

/-- One call at time `now`; none in place of the members: indeterminate before the first start. Result none: undefined behaviour (use of an indeterminate value). Percentages are ℚ: a zero total gives 0 here and a NaN or infinity in the code. Long long overflow in the ETA product is not modelled (progress.cpp:106-165). -/
def defaultStep (s : Option Default) (now : Int) : Call → Option (Option Default × List Report)
  | .start m t tt => some (some ⟨m, t, tt, now, now⟩, [])
  | .update n =>
    match s with
    | none => none
    | some s =>
      if s.mode ≠ .samples then some (some s, [])
      else if ms (now - s.last) > 500 then
        some (some { s with last := now },
          [.samples n s.total ((n : ℚ) / (s.total : ℚ) * 100) (if n = 0 then none else some ((ms (now - s.start) * (s.total - n)).tdiv n))])
      else some (some s, [])
  | .updateTime e =>
    match s with
    | none => none
    | some s =>
      if s.mode ≠ .time then some (some s, [])
      else if ms (now - s.last) > 500 then some (some { s with last := now }, [.time e s.totalTime (e / s.totalTime * 100) (s.totalTime - e)])
      else some (some s, [])
  | .fin => some (s, [.completed])

end LM.Progress
