import Verif.Model.Logger
/-
  Printing the tree of assets: src/debug.cpp:82-119, with the visitor protocol of foreach_underlying (component.h:266).
  The log calls are those of Verif/Model/Logger.lean; the header of a message (which contains the time) is a function of the number of the call. The asset group exists (lm::init has been called).
-/
namespace LM.AssetTree
open LM.Log

mutual
/-- A component with its locator, its key and the components it refers to (component.h:97, 266). `silent` marks the classes that do not override foreach_underlying
    although they have members: renderer_bdpt.cpp:37-85, renderer_bdptopt.cpp, model_pbrt.cpp:107-116. -/
inductive Comp
  | mk (loc key : Text) (silent : Bool) (fields : Slots)
/-- The members in the order of foreach_underlying (e.g. assetgroup.cpp:22-26): null pointers, weak references (the locator of the target), owned components. -/
inductive Slots
  | nil
  | null (rest : Slots)
  | weak (loc : Text) (rest : Slots)
  | owned (c : Comp) (rest : Slots)
end

/-- The calls of the logger: LM_INFO, and constructor and destructor of LM_INDENT (logger.h:190-193, 271-278). -/
inductive Cmd
  | info (msg : Text)
  | indent
  | unindent

mutual
/-- The visitor for an owned component, debug.cpp:100-112. -/
def visit (weakRefs : Bool) (parent : Text) : Comp → List Cmd
  | .mk loc key silent fields => .info (loc.drop parent.length ++ " [".toList ++ key ++ "]".toList) :: .indent :: ((if silent then [] else visitAll weakRefs loc fields) ++ [.unindent])
/-- foreach_underlying with the visitor, debug.cpp:87-113. -/
def visitAll (weakRefs : Bool) (parent : Text) : Slots → List Cmd
  | .nil => []
  | .null r => visitAll weakRefs parent r
  | .weak loc r => (if weakRefs then [.info ("-> ".toList ++ loc)] else []) ++ visitAll weakRefs parent r
  | .owned c r => visit weakRefs parent c ++ visitAll weakRefs parent r
end

/-- The locator of the group of assets, debug.cpp:115-118. -/
def root : Text := "$.assets".toList

/-- print_asset_tree, debug.cpp:82-119. -/
def printTree (weakRefs : Bool) (assets : Slots) : List Cmd := .info root :: .indent :: (visitAll weakRefs root assets ++ [.unindent])

/-- LogLevel::Info, logger.h:53. -/
def infoLevel : Int := 10

/-- The calls as operations of the logger (logger.h:190-193, 271-278); `hdr n` is the header of the message number n. -/
def play (hdr : Nat → Text) : Nat → List Cmd → List Op
  | _, [] => []
  | n, .info m :: cs => .log infoLevel infoLevel (hdr n) m :: play hdr (n + 1) cs
  | n, .indent :: cs => .updateIndentation 1 :: play hdr n cs
  | n, .unindent :: cs => .updateIndentation (-1) :: play hdr n cs

end LM.AssetTree
