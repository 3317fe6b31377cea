import Verif.Model.AMap
/-
  Subsystem contexts (include/lm/component.h:622-686) and the user context (src/user.cpp:23-113).
-/
namespace LM.Context

/-- What `comp::create<ContextComponentT>(type, "$", prop)` does for a given call (include/lm/component.h:582-590):
    returns null (unknown key or wrong interface), throws from `construct` (the instance made is destroyed by its unique_ptr),
    or returns the constructed instance. Instances are identified by numbers. -/
inductive Create where
  | null
  | throws (id : Nat)
  | ok (id : Nat)
deriving DecidableEq, Repr

/-- The calls, component.h:622-686. -/
inductive Op where
  | init (c : Create)
  | shutdown
  | use
deriving DecidableEq, Repr

/-- Life-cycle events of context components (component.h:622-686). -/
inductive Event where
  | created (id : Nat)
  | destroyed (id : Nat)
deriving DecidableEq, Repr

/-- Outcomes of calls, component.h:622-686. -/
inductive Out where
  | unit
  | ref (id : Nat)          -- reference to the live context
  | uninitialized           -- exception Error::Uninitialized
  | exception               -- exception of the context's own construct()
deriving DecidableEq, Repr

/-- include/lm/component.h:625 `context`, plus the trace of life-cycle events. -/
structure St where
  ctx : Option Nat
  trace : List Event
deriving DecidableEq, Repr

/-- No instance, component.h:622-640. -/
def St.init : St := ⟨none, []⟩

/-- include/lm/component.h:672-674 `shutdown`: `context.reset()`. -/
def shutdown (s : St) : St :=
  match s.ctx with
  | none => s
  | some i => { ctx := none, trace := s.trace ++ [.destroyed i] }

/-- include/lm/component.h:666 `instance().context = comp::create<...>(type, "$", prop)`. -/
def assignCreated (s : St) (c : Create) : St × Out :=
  match c with
  | .null => ({ s with ctx := none }, .unit)
  | .throws i => ({ s with trace := s.trace ++ [.created i, .destroyed i] }, .exception)
  | .ok i => ({ ctx := some i, trace := s.trace ++ [.created i] }, .unit)

/-- include/lm/component.h:660-667 `init`. -/
def initCtx (s : St) (c : Create) : St × Out :=
  assignCreated (if s.ctx.isSome then shutdown s else s) c

/-- include/lm/component.h:642-648 `get`. -/
def get (s : St) : Out :=
  match s.ctx with
  | none => .uninitialized
  | some i => .ref i

/-- One call, component.h:622-686. -/
def step (s : St) : Op → St × Out
  | .init c => initCtx s c
  | .shutdown => (shutdown s, .unit)
  | .use => (s, get s)

/-- State after a history, oldest call first (component.h:622-686). -/
def run (h : List Op) : St := h.foldl (fun s o => (step s o).1) St.init

end LM.Context

namespace LM.User

/-- User-level calls, src/user.cpp:54-112. -/
inductive Op where
  | init | shutdown | reset | info | assets | save | load
deriving DecidableEq, Repr

/-- Outcomes of calls, user.cpp:23-113. -/
inductive Out where
  | unit
  | uninitialized           -- exception Error::Uninitialized
  | ptr (p : Option Nat)    -- returned pointer (null or asset group identity)
  | nullDeref               -- undefined behaviour: member access through a null root_assets_
deriving DecidableEq, Repr

/-- src/user.cpp:25-26. `root` identifies the current root asset group; `next` numbers the groups made so far. -/
structure St where
  initialized : Bool
  root : Option Nat
  next : Nat
deriving DecidableEq, Repr

/-- Before init, user.cpp:23-60. -/
def St.init : St := ⟨false, none, 0⟩

/-- src/user.cpp:99-102 `reset`. "asset_group::default" is registered by src/assetgroup.cpp:141 and has no construct(),
    so creation succeeds. -/
def reset (s : St) : St := { s with root := some s.next, next := s.next + 1 }

/-- src/user.cpp:54-112. The subsystem init/shutdown calls (lines 55-59, 66-70) are modelled by LM.Context. -/
def step (s : St) : Op → St × Out
  | .init => ({ reset s with initialized := true }, .unit)                          -- 54-62
  | .shutdown => if s.initialized then ({ s with initialized := false }, .unit)     -- 64-72
                 else (s, .uninitialized)
  | .reset => (reset s, .unit)                                                      -- 99-102, no check
  | .info => if s.initialized then (s, .unit) else (s, .uninitialized)              -- 87-93
  | .assets => (s, .ptr s.root)                                                     -- 95-97, no check
  | .save => match s.root with                                                      -- 104-107, no check
    | none => (s, .nullDeref)
    | some _ => (s, .unit)
  | .load => match s.root with                                                      -- 109-112, no check
    | none => (s, .nullDeref)
    | some _ => ({ s with root := some s.next, next := s.next + 1 }, .unit)

/-- A history of calls, oldest first (user.cpp:23-113). -/
def run (h : List Op) : St := h.foldl (fun s o => (step s o).1) St.init

end LM.User
