import Verif.Model.PyTrampoline
/-
  What it means that a method implemented in Python is called like one implemented in C++ (C102).
-/
namespace LM.PyTramp

/-- Changes of the object are meant to be seen by the caller. -/
def Param.byReference (p : Param) : Bool := p.mode = .mutRef ∨ p.mode = .ptr

/-- The outcome of a call of the method `m` that runs the function `f` on the arguments: `f` gets all of them in order, its exception or its result (converted to the declared type) is what the caller gets,
    and objects passed by reference are afterwards in the state in which `f` left them. -/
def ran (m : Method) (f : List PyVal → PyRes) (args : ℕ → Actual) : Outcome :=
  match f ((List.range m.params.length).map fun k => (args k).val) with
  | .raises e => .pyError e
  | .returns v after =>
    match load m.ret m.retNone v with
    | none => .castError
    | some r => .result r ((m.params.zipIdx.filter fun x => x.1.byReference).map fun x => (x.2, after x.2))

/-- The outcome expected of a call on an instance of the class `c`: its method of this name, or the implementation of the interface if there is one. -/
def expected (m : Method) (c : PyClass) (args : ℕ → Actual) : Outcome :=
  match c m.name with
  | some f => ran m f args
  | none => if m.pure then .pureVirtual else .inherited

/-- The objects passed by non-const reference, and those of abstract classes, are known to the interpreter already. -/
def Known (m : Method) (args : ℕ → Actual) : Prop :=
  ∀ k p, m.params[k]? = some p → p.mode = .mutRef ∨ p.mode = .constRef ∧ abstract_ p.ty = true → (args k).wrapped = true

/-- The methods of which a parameter or the result has a type that is not known to Python. -/
def foreign : List (Iface × Name) := [
  (.scene, .sample_light_selection), (.scene, .light_primitive_index_at),
  (.material, .sample_component), (.material, .sample_direction), (.material, .eval),
  (.phase, .sample_direction),
  (.volume, .bound),
  (.camera, .sample_ray), (.camera, .sample_direction), (.camera, .sample_position), (.camera, .sample_direct),
  (.light, .sample_ray), (.light, .pdf_ray), (.light, .sample_direction), (.light, .sample_position), (.light, .pdf_position), (.light, .sample_direct), (.light, .pdf_direct)]

/-- The methods of which the implementation in Python is not used. -/
def ignored (i : Iface) (n : Name) : Prop :=
  n ∈ [Name.underlying, .foreach_underlying, .underlying_value, .underlying_raw_pointer] ∨
  (i, n) ∈ [(Iface.film, Name.splat), (.texture, .eval_alpha), (.texture, .has_alpha), (.texture, .buffer), (.volume, .march), (.light, .set_scene_bound), (.light, .is_env)]

instance (i : Iface) (n : Name) : Decidable (ignored i n) := by unfold ignored; infer_instance

end LM.PyTramp
