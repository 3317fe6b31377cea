import Verif.Model.Bound
import Mathlib.Data.List.Perm.Basic
/-
  src/accel/accel_sahbvh.cpp: triangles (26-76), nodes (79-89), parallel construction (127-267), traversal (269-299).
  Simplifications: Float is ℚ (exact), the ray/box test has explicit NaN and infinities (Model/Bound). Triangle and node arrays are functions of
  the index; that accesses stay below the allocated size is a theorem, not an assumption. The work a thread does on the data it owns (its node and
  its range of the index array) is one step; steps of different threads interleave arbitrarily. `done` is read as if it were atomic.
-/
namespace LM.Bvh
open LM LM.Bound

/-- Tri, accel_sahbvh.cpp:26-33 (without the two bookkeeping integers). -/
structure Tri where
  p1 : V3 ℚ
  e1 : V3 ℚ
  e2 : V3 ℚ
  b : Box ℚ
  c : V3 ℚ

/-- Tri::Tri, accel_sahbvh.cpp:41-49. -/
def Tri.mk' (p1 p2 p3 : V3 ℚ) : Tri :=
  let b := mergeP (mergeP (mergeP dflt p1) p2) p3
  { p1 := p1, e1 := p2 - p1, e2 := p3 - p1, b := b, c := center b }

/-- Tri::Hit, accel_sahbvh.cpp:52-55. -/
structure Hit where
  t : ℚ
  u : ℚ
  v : ℚ
deriving DecidableEq

/-- std::copysign(1, d), accel_sahbvh.cpp:64; the sign of a zero does not matter because |d| < 1e-8 is rejected. -/
def sgn (d : ℚ) : ℚ := if d < 0 then -1 else 1

/-- Tri::intersect, accel_sahbvh.cpp:58-75. -/
def Tri.intersect (T : Tri) (r : Ray) (tl th : ℚ) : Option Hit :=
  let p := V3.cross r.d T.e2
  let tv := r.o - T.p1
  let q := V3.cross tv T.e1
  let d := V3.dot T.e1 p
  let ad := |d|
  let s := sgn d
  let u := V3.dot tv p * s
  let v := V3.dot r.d q * s
  if ad < 1 / 10 ^ 8 ∨ u < 0 ∨ v < 0 ∨ u + v > ad then none
  else
    let t := V3.dot T.e2 q / d
    if t < tl ∨ th < t then none else some ⟨t, u / ad, v / ad⟩

/-- Node, accel_sahbvh.cpp:79-84. -/
structure Node where
  b : Box ℚ
  leaf : Bool
  s : ℕ
  e : ℕ
  c1 : ℕ
  c2 : ℕ

/-- `{}` of accel_sahbvh.cpp:163: default bound, not a leaf. -/
def Node.init : Node := ⟨dflt, false, 0, 0, 0, 0⟩

/-- Entry, accel_sahbvh.cpp:156-160. -/
structure Entry where
  i : ℕ
  s : ℕ
  e : ℕ

/-- Where a builder thread is in the lambda of accel_sahbvh.cpp:172-258. -/
inductive Stage
  | idle                    -- at the top of the loop, or about to take the lock (173-177)
  | waiting                 -- asleep in cv.wait (178)
  | popped (E : Entry)      -- has an entry, about to re-read `done` (187-189)
  | work (E : Entry)        -- before the bound computation (192)
  | bounded (E : Entry)     -- bound written (195)
  | leafAdd (E : Entry)     -- leaf fields written (207-209), before pr += e - s
  | leafChk                 -- after pr += e - s, before the comparison (211)
  | split (E : Entry) (m : ℕ)  -- axis and position chosen, range sorted (251-252), before pushing the children
  | exited

/-- Shared state and threads of the construction, accel_sahbvh.cpp:155-170. -/
structure St where
  queue : List Entry
  nodes : ℕ → Node
  idx : ℕ → ℕ          -- indices_
  pr : ℕ
  nn : ℕ
  done : Bool
  ths : List Stage

/-- accel_sahbvh.cpp:161-170, 260-263: k threads are started. -/
def St.init (n k : ℕ) : St :=
  ⟨[⟨0, 0, n⟩], fun _ => Node.init, fun i => i, 0, 1, false, List.replicate k Stage.idle⟩

/-- The index values of the range [s, e) (accel_sahbvh.cpp:193-203). -/
def seg (idx : ℕ → ℕ) (s e : ℕ) : List ℕ := (List.range' s (e - s)).map idx

/-- Assignment to nodes_[i], accel_sahbvh.cpp:192-258. -/
def setNode (nodes : ℕ → Node) (i : ℕ) (n : Node) : ℕ → Node := fun j => if j = i then n else nodes j

/-- Coordinate of a vector, operator[] (used at accel_sahbvh.cpp:198-203). -/
def coord (v : V3 ℚ) : ℕ → ℚ
  | 0 => v.x
  | 1 => v.y
  | _ => v.z

/-- st(ax), accel_sahbvh.cpp:198-203: std::sort may produce any permutation of [s, e) that is sorted by the centre along the axis. -/
def Sorts (trs : ℕ → Tri) (s e ax : ℕ) (idx idx' : ℕ → ℕ) : Prop :=
  (∀ j, ¬ (s ≤ j ∧ j < e) → idx' j = idx j) ∧ (seg idx' s e).Perm (seg idx s e) ∧
  (seg idx' s e).Pairwise (fun a b => ¬ coord (trs b).c ax < coord (trs a).c ax)

/-- n.b after the loop of accel_sahbvh.cpp:193-195. -/
def rangeBound (trs : ℕ → Tri) (idx : ℕ → ℕ) (s e : ℕ) (b : Box ℚ) : Box ℚ := (seg idx s e).foldl (fun b i => merge b (trs i).b) b

/-- l[i] and r[i] of accel_sahbvh.cpp:230-237 for the sorted range `sg`. -/
def sahL (trs : ℕ → Tri) (sg : List ℕ) (i : ℕ) : ℚ := surfaceArea ((sg.take i).foldl (fun b i => merge b (trs i).b) dflt) * i
/-- r[i], see sahL: accel_sahbvh.cpp:230-237. -/
def sahR (trs : ℕ → Tri) (sg : List ℕ) (i : ℕ) : ℚ := surfaceArea ((sg.drop i).reverse.foldl (fun b i => merge b (trs i).b) dflt) * (sg.length - i : ℕ)

/-- Cost of splitting after i triangles, accel_sahbvh.cpp:239; none: division by a zero area, i.e. +inf or NaN, which both compare false in `c < b`. -/
def sahCost (trs : ℕ → Tri) (sg : List ℕ) (area : ℚ) (i : ℕ) : Option ℚ :=
  if area = 0 then none else some (1 + (sahL trs sg i + sahR trs sg i) / area)

/-- Running minimum of accel_sahbvh.cpp:225-246: cost, and position and axis if any (bi, ba = -1 otherwise). -/
structure Best where
  b : ℚ
  ia : Option (ℕ × ℕ)

/-- accel_sahbvh.cpp:238-245 for one axis. -/
def sahAxis (trs : ℕ → Tri) (sg : List ℕ) (area : ℚ) (a : ℕ) (best : Best) : Best :=
  (List.range' 1 (sg.length - 1)).foldl (fun best i =>
    match sahCost trs sg area i with
    | none => best
    | some c => if c < best.b then ⟨c, some (i, a)⟩ else best) best

/-- accel_sahbvh.cpp:225-246, given the three sorted ranges. -/
def sahBest (trs : ℕ → Tri) (area : ℚ) (sg0 sg1 sg2 : List ℕ) : Best :=
  sahAxis trs sg2 area 2 (sahAxis trs sg1 area 1 (sahAxis trs sg0 area 0 ⟨Inf, none⟩))

/-- cv.notify_one: wakes one waiting thread if there is one (accel_sahbvh.cpp:172-258). -/
def Wake1 (ts ts' : List Stage) : Prop :=
  (Stage.waiting ∉ ts ∧ ts' = ts) ∨ ∃ a b, ts = a ++ Stage.waiting :: b ∧ ts' = a ++ Stage.idle :: b

/-- cv.notify_all (accel_sahbvh.cpp:172-258). -/
def wake : Stage → Stage
  | .waiting => .idle
  | t => t
/-- cv.notify_all: all waiting threads (accel_sahbvh.cpp:172-258). -/
def wakeAll (ts : List Stage) : List Stage := ts.map wake

/-- One step of one thread. `A ++ st :: B` are the threads, `st` the one that moves (accel_sahbvh.cpp:172-258). -/
inductive Step (trs : ℕ → Tri) (n : ℕ) : St → St → Prop
  /-- 173, 180-182, 187-189: `done` is set: leave the loop. -/
  | exit (A B q nodes idx pr nn) :
      Step trs n ⟨q, nodes, idx, pr, nn, true, A ++ .idle :: B⟩ ⟨q, nodes, idx, pr, nn, true, A ++ .exited :: B⟩
  /-- 177-179: queue empty: sleep. -/
  | wait (A B nodes idx pr nn) :
      Step trs n ⟨[], nodes, idx, pr, nn, false, A ++ .idle :: B⟩ ⟨[], nodes, idx, pr, nn, false, A ++ .waiting :: B⟩
  /-- 183-185: take the front entry. -/
  | pop (A B E q nodes idx pr nn) :
      Step trs n ⟨E :: q, nodes, idx, pr, nn, false, A ++ .idle :: B⟩ ⟨q, nodes, idx, pr, nn, false, A ++ .popped E :: B⟩
  /-- 187-189: second look at `done`. -/
  | recheck (A B E q nodes idx pr nn dn) :
      Step trs n ⟨q, nodes, idx, pr, nn, dn, A ++ .popped E :: B⟩ ⟨q, nodes, idx, pr, nn, dn, A ++ (if dn then .exited else .work E) :: B⟩
  /-- 192-195 -/
  | bound (A B E q nodes idx pr nn dn) :
      Step trs n ⟨q, nodes, idx, pr, nn, dn, A ++ .work E :: B⟩
        ⟨q, setNode nodes E.i { nodes E.i with b := rangeBound trs idx E.s E.e (nodes E.i).b }, idx, pr, nn, dn, A ++ .bounded E :: B⟩
  /-- 219-222, 207-209: a single triangle. -/
  | leaf1 (A B E q nodes idx pr nn dn) (h : E.e - E.s < 2) :
      Step trs n ⟨q, nodes, idx, pr, nn, dn, A ++ .bounded E :: B⟩
        ⟨q, setNode nodes E.i { nodes E.i with leaf := true, s := E.s, e := E.e }, idx, pr, nn, dn, A ++ .leafAdd E :: B⟩
  /-- 224-250, 207-209: no split is better than a leaf. -/
  | leafN (A B E q nodes idx pr nn dn i0 i1 i2) (h : ¬ E.e - E.s < 2)
      (h0 : Sorts trs E.s E.e 0 idx i0) (h1 : Sorts trs E.s E.e 1 i0 i1) (h2 : Sorts trs E.s E.e 2 i1 i2)
      (hb : (sahBest trs (surfaceArea (nodes E.i).b) (seg i0 E.s E.e) (seg i1 E.s E.e) (seg i2 E.s E.e)).b > (E.e - E.s : ℕ)) :
      Step trs n ⟨q, nodes, idx, pr, nn, dn, A ++ .bounded E :: B⟩
        ⟨q, setNode nodes E.i { nodes E.i with leaf := true, s := E.s, e := E.e }, i2, pr, nn, dn, A ++ .leafAdd E :: B⟩
  /-- 224-252: split at the best position. (bi = -1, i.e. no position, is not a step: `C36_no_stuck` shows it does not happen.) -/
  | choose (A B E q nodes idx pr nn dn i0 i1 i2 i3 bi ba) (h : ¬ E.e - E.s < 2)
      (h0 : Sorts trs E.s E.e 0 idx i0) (h1 : Sorts trs E.s E.e 1 i0 i1) (h2 : Sorts trs E.s E.e 2 i1 i2)
      (hb : ¬ (sahBest trs (surfaceArea (nodes E.i).b) (seg i0 E.s E.e) (seg i1 E.s E.e) (seg i2 E.s E.e)).b > (E.e - E.s : ℕ))
      (hi : (sahBest trs (surfaceArea (nodes E.i).b) (seg i0 E.s E.e) (seg i1 E.s E.e) (seg i2 E.s E.e)).ia = some (bi, ba))
      (h3 : Sorts trs E.s E.e ba i2 i3) :
      Step trs n ⟨q, nodes, idx, pr, nn, dn, A ++ .bounded E :: B⟩ ⟨q, nodes, i3, pr, nn, dn, A ++ .split E (E.s + bi) :: B⟩
  /-- 253-256: push the children under the lock, wake one thread. -/
  | push (A B E m q nodes idx pr nn dn ths') (hw : Wake1 (A ++ .idle :: B) ths') :
      Step trs n ⟨q, nodes, idx, pr, nn, dn, A ++ .split E m :: B⟩
        ⟨q ++ [⟨nn, E.s, m⟩, ⟨nn + 1, m, E.e⟩], setNode nodes E.i { nodes E.i with c1 := nn, c2 := nn + 1 }, idx, pr, nn + 2, dn, ths'⟩
  /-- 210 -/
  | add (A B E q nodes idx pr nn dn) :
      Step trs n ⟨q, nodes, idx, pr, nn, dn, A ++ .leafAdd E :: B⟩ ⟨q, nodes, idx, pr + (E.e - E.s), nn, dn, A ++ .leafChk :: B⟩
  /-- 211: not finished. -/
  | chkNo (A B q nodes idx pr nn dn) (h : pr ≠ n) :
      Step trs n ⟨q, nodes, idx, pr, nn, dn, A ++ .leafChk :: B⟩ ⟨q, nodes, idx, pr, nn, dn, A ++ .idle :: B⟩
  /-- 211-215: finished: set `done`, wake everybody. -/
  | chkYes (A B q nodes idx pr nn dn) (h : pr = n) :
      Step trs n ⟨q, nodes, idx, pr, nn, dn, A ++ .leafChk :: B⟩ ⟨q, nodes, idx, pr, nn, true, wakeAll (A ++ .idle :: B)⟩

/-! ### Traversal -/

/-- Best hit so far: hit and position in indices_ (accel_sahbvh.cpp:269-275). -/
structure TSt where
  stack : List ℕ            -- s[0..si], top first
  best : Option (Hit × ℕ)   -- mh, mi
  tmax : ℚ

/-- The loop over the triangles of a leaf, accel_sahbvh.cpp:285-291. -/
def leafLoop (trs : ℕ → Tri) (idx : ℕ → ℕ) (r : Ray) (tmin : ℚ) (st : TSt) (is : List ℕ) : TSt :=
  is.foldl (fun st i =>
    match (trs (idx i)).intersect r tmin st.tmax with
    | some h => { st with best := some (h, i), tmax := h.t }
    | none => st) st

/-- Outcome of one iteration (accel_sahbvh.cpp:275-292). -/
inductive TOut
  | finished (st : TSt)
  | next (st : TSt)
  | overflow           -- write beyond s[98]: undefined behaviour

/-- The stack is `int s[99]`, accel_sahbvh.cpp:273. -/
def cap : ℕ := 99

/-- One iteration of the loop of accel_sahbvh.cpp:275-292. -/
def tstep (nodes : ℕ → Node) (trs : ℕ → Tri) (idx : ℕ → ℕ) (r : Ray) (tmin : ℚ) (st : TSt) : TOut :=
  match st.stack with
  | [] => .finished st
  | i :: rest =>
    let n := nodes i
    if isect n.b r (.fin tmin) (.fin st.tmax) = false then .next { st with stack := rest }
    else if n.leaf = false then
      if rest.length + 2 ≤ cap then .next { st with stack := n.c2 :: n.c1 :: rest } else .overflow
    else .next (leafLoop trs idx r tmin { st with stack := rest } (List.range' n.s (n.e - n.s)))

/-- Iterating at most `fuel` times; none: not finished yet (accel_sahbvh.cpp:275-292). -/
def trun (nodes : ℕ → Node) (trs : ℕ → Tri) (idx : ℕ → ℕ) (r : Ray) (tmin : ℚ) : ℕ → TSt → Option TOut
  | 0, _ => none
  | fuel + 1, st =>
    match tstep nodes trs idx r tmin st with
    | .next st' => trun nodes trs idx r tmin fuel st'
    | o => some o

/-- Accel_SAHBVH::intersect, accel_sahbvh.cpp:269-299, initial state: the root on the stack. -/
def TSt.init (tmax : ℚ) : TSt := ⟨[0], none, tmax⟩

end LM.Bvh
