import Mathlib.Tactic.Common
/-
  Lifetime of component instances shared by C++ and Python: include/lm/pylm.h:303-384 (reg_comp_wrap, cast_to_python_object, create_comp_wrap), include/lm/component.h:100-111, 302-311 (ComponentDeleter).
  What pybind11 and the Python interpreter do with references is modelled by reference counts: an object is deallocated when its count gets zero; deallocation destroys the holder, if the object has one; a pointer that already belongs to an object is
  returned as that object; return_value_policy::reference makes an object without holder. One instance is modelled; reference cycles in user code are not.
-/
namespace LM.PyLife

/-- Implemented in C++, or by a class defined in Python. -/
inductive Kind where
  | native
  | python
  deriving DecidableEq

/-- A component instance and the Python object that belongs to it. -/
structure Inst where
  kind : Kind
  /-- The C++ object has not been deleted. -/
  alive : Bool
  /-- A component of the C++ side owns the instance (Component::Ptr), component.h:78. -/
  owned : Bool
  /-- owner_ref_ is set, component.h:106. -/
  ownerRef : Bool
  /-- release_func_ is set, component.h:103. -/
  release : Bool
  /-- The reference count of the Python object; none: there is no Python object. -/
  count : Option ℕ
  /-- The Python object has a holder (a Component::Ptr). -/
  holder : Bool
  /-- References held by the Python program. -/
  users : ℕ

/-- comp::create called by the C++ side for an asset (component.cpp:168-196), which keeps the instance. For a class of Python the create function is pylm.h:306-317: the object is created (count 1), owner_ref_ is a second reference, and the local variable is destroyed.
    native: the create function of LM_COMP_REG_IMPL. -/
def created : Kind → Inst
  | .native => ⟨.native, true, true, false, true, none, false, 0⟩
  | .python => ⟨.python, true, true, true, true, some (1 + 1 - 1), true, 0⟩

/-- create called from Python (create_comp_wrap, pylm.h:373-382, with cast_to_python_object, pylm.h:338-358): the owner object is returned, or an object that takes ownership. -/
def createdFromPython : Kind → Inst
  | .native => ⟨.native, true, false, false, true, some 1, true, 1⟩
  | .python => ⟨.python, true, false, true, true, some (1 + 1 - 1 + 1), true, 1⟩

/-- An instance of a Python class made by calling the class. -/
def constructed : Inst := ⟨.python, true, false, false, false, some 1, true, 1⟩

/-- Deletion of the C++ object by the release function of LM_COMP_REG_IMPL (`delete`); none: it is deleted twice. -/
def delete (s : Inst) : Option Inst := if s.alive then some { s with alive := false } else none

mutual
/-- Py_DECREF; at zero the object is deallocated and its holder destroyed. fuel bounds the nesting of the destructors. -/
def decref : ℕ → Inst → Option Inst
  | 0, _ => none
  | fuel + 1, s => match s.count with
    | none => none
    | some 0 => none
    | some 1 => if s.holder then deleter fuel { s with count := none } else some { s with count := none }
    | some (n + 2) => some { s with count := some (n + 1) }
/-- ComponentDeleter, component.h:302-311: reads the instance, so it must not have been deleted. The release function of Python classes is pylm.h:318-331. -/
def deleter : ℕ → Inst → Option Inst
  | 0, _ => none
  | fuel + 1, s =>
    if s.alive = false then none
    else if s.release = false then some s
    else match s.kind with
      | .native => delete s
      | .python =>
        if s.ownerRef = false then none
        else match s.count with
          | none => none
          | some n => match decref fuel { s with count := some (n + 1) } with
            | none => none
            | some s => decref fuel { s with release := false }
end

/-- What can happen to an instance. -/
inductive Op where
  /-- C++ returns a pointer to the instance to Python (load, get; return_value_policy::reference). -/
  | get
  /-- The Python program copies a reference. -/
  | copy
  /-- The Python program drops a reference. -/
  | drop
  /-- The Python program calls a member function. -/
  | use
  /-- The C++ side calls a virtual function. -/
  | call
  /-- The owner on the C++ side lets go of the instance (an asset is replaced or the assets are reset). -/
  | destroy

/-- One step; operations that are not possible in a state leave it as it is; none: undefined behaviour. -/
def step (s : Inst) : Op → Option Inst
  | .get => if s.owned = false then some s else if s.alive = false then none else
      match s.count with
      | none => some { s with count := some 1, holder := false, users := s.users + 1 }
      | some n => some { s with count := some (n + 1), users := s.users + 1 }
  | .copy => if s.users = 0 then some s else match s.count with
      | none => none
      | some n => some { s with count := some (n + 1), users := s.users + 1 }
  | .drop => if s.users = 0 then some s else decref 8 { s with users := s.users - 1 }
  | .use => if s.users = 0 then some s else if s.alive then some s else none
  | .call => if s.owned = false then some s else if s.alive then some s else none
  | .destroy => if s.owned = false then some s else deleter 8 { s with owned := false }

/-- A history. -/
def run : Inst → List Op → Option Inst
  | s, [] => some s
  | s, o :: os => (step s o).bind fun s => run s os

end LM.PyLife
