import Verif.Spec.PyComponent
import Verif.Props.C12_Archive
import Mathlib.Data.List.Induction
import Mathlib.Data.List.Basic
/-
  C102: components implemented in Python are called like components implemented in C++.
-/
open LM.Archive
namespace LM.PyTramp

theorem filterMap_range {α : Type} (l : List α) :
    ((List.range l.length).filterMap fun k => (l[k]?).map fun p => (k, p)) = l.zipIdx.map fun x => (x.2, x.1) := by
  induction l using List.reverseRecOn with
  | nil => rfl
  | append_singleton l a ih =>
    rw [List.length_append, List.length_singleton, List.range_succ, List.filterMap_append, List.zipIdx_append, List.map_append, ← ih]
    congr 1
    · apply List.filterMap_congr
      intro k hk
      rw [List.mem_range] at hk
      rw [List.getElem?_append_left hk]
    · simp

/-- What the table says about a method whose calls go through: the trampoline looks up the same name, is pure if the method is, passes on all parameters, and the types of the parameters are known to Python. -/
def Sound (i : Iface) (m : Method) : Prop :=
  ∃ s, (trampoline i).find? (fun s => s.name = m.name) = some s ∧ s.target = m.name ∧ s.pure = m.pure ∧ s.passed = List.range m.params.length ∧
    ∀ p ∈ m.params, (hasCaster p.ty || registered p.ty) = true ∧ (p.byReference = true → registered p.ty = true) ∧ (p.mode = .value → abstract_ p.ty = false)

/-- The decidable form of `Sound`. -/
def soundB (i : Iface) (m : Method) : Bool :=
  match (trampoline i).find? (fun s => s.name = m.name) with
  | some s => decide (s.target = m.name) && decide (s.pure = m.pure) && decide (s.passed = List.range m.params.length) &&
      m.params.all fun p => (hasCaster p.ty || registered p.ty) && (!p.byReference || registered p.ty) && (p.mode != .value || !abstract_ p.ty)
  | none => false

theorem sound_of {i : Iface} {m : Method} (h : soundB i m = true) : Sound i m := by
  unfold soundB at h
  split at h
  · rename_i s hs
    simp only [Bool.and_eq_true, decide_eq_true_eq, List.all_eq_true] at h
    obtain ⟨⟨⟨h1, h2⟩, h3⟩, h4⟩ := h
    refine ⟨s, hs, h1, h2, h3, fun p hp => ⟨(h4 p hp).1.1, fun hb => ?_, fun hb => ?_⟩⟩
    · have := (h4 p hp).1.2
      rw [hb] at this
      simpa using this
    · have := (h4 p hp).2
      rw [hb] at this
      simpa using this
  · exact absurd h (by decide)

theorem call_eq_expected {i : Iface} {m : Method} (h : Sound i m) (c : PyClass) (args : ℕ → Actual) (hk : Known m args) : call i m c args = expected m c args := by
  obtain ⟨s, hs, ht, hp, hpass, hty⟩ := h
  unfold call expected
  rw [hs]
  show dispatch s m c args = _
  unfold dispatch
  rw [ht, hp, hpass, filterMap_range]
  cases hc : c m.name with
  | none => rfl
  | some f =>
    have hidx : ∀ x ∈ m.params.zipIdx, m.params[x.2]? = some x.1 := fun x hx => by
      rw [List.mem_zipIdx_iff_getElem?] at hx
      exact hx
    have hconv : ((m.params.zipIdx.map fun x => (x.2, x.1)).all fun kp => converts kp.2 (args kp.1)) = true := by
      rw [List.all_eq_true]
      intro y hy
      obtain ⟨x, hx, rfl⟩ := List.mem_map.mp hy
      have hi := hidx x hx
      have hm := List.mem_of_getElem? hi
      have h1 := (hty x.1 hm).1
      unfold converts
      dsimp only
      cases hcst : hasCaster x.1.ty with
      | true => rfl
      | false =>
        rw [hcst, Bool.false_or] at h1
        rw [h1]
        cases hab : abstract_ x.1.ty with
        | false => simp
        | true =>
          cases hmode : x.1.mode with
          | ptr => rfl
          | mutRef => rw [hk _ _ hi (Or.inl hmode)]; rfl
          | constRef => rw [hk _ _ hi (Or.inr ⟨hmode, hab⟩)]; rfl
          | value =>
            rw [(hty x.1 hm).2.2 hmode] at hab
            exact absurd hab (by decide)
    have hargs : ((m.params.zipIdx.map fun x => (x.2, x.1)).map fun kp : ℕ × Param => (args kp.1).val) = (List.range m.params.length).map fun k => (args k).val := by
      rw [List.map_map]
      have : (List.range m.params.length) = m.params.zipIdx.map Prod.snd := by simp [List.zipIdx_map_snd, List.range_eq_range']
      rw [this, List.map_map]
      rfl
    have hzip : (m.params.zipIdx.map fun x => (x.2, x.1)).zipIdx = m.params.zipIdx.map fun x => ((x.2, x.1), x.2) := by
      apply List.ext_getElem? 
      intro k
      simp only [List.getElem?_zipIdx, List.getElem?_map, Option.map_map]
      cases m.params[k]? <;> simp
    dsimp only
    rw [if_pos hconv, hargs]
    unfold ran
    cases f ((List.range m.params.length).map fun k => (args k).val) with
    | raises e => rfl
    | returns v after =>
      dsimp only
      cases load m.ret m.retNone v with
      | none => rfl
      | some r =>
        dsimp only
        congr 1
        rw [hzip, List.filter_map, List.map_map]
        have hfil : (m.params.zipIdx.filter ((fun x : (ℕ × Param) × ℕ => x.1.2.mode == .mutRef || x.1.2.mode == .ptr) ∘ fun x : Param × ℕ => ((x.2, x.1), x.2))) = m.params.zipIdx.filter fun x => x.1.byReference := by
          apply List.filter_congr
          intro x hx
          simp only [Function.comp_apply, Param.byReference]
          cases x.1.mode <;> rfl
        rw [hfil]
        apply List.map_congr_left
        intro x hx
        obtain ⟨hx1, hx2⟩ := List.mem_filter.mp hx
        have hi := hidx x hx1
        have hreg := (hty x.1 (List.mem_of_getElem? hi)).2.1 hx2
        have : shares x.1 (args x.2) = true := by
          unfold shares
          rw [hreg]
          cases hmode : x.1.mode with
          | ptr => rfl
          | mutRef => rw [hk _ _ hi (Or.inl hmode)]; rfl
          | constRef => rw [Param.byReference, hmode] at hx2; exact absurd hx2 (by decide)
          | value => rw [Param.byReference, hmode] at hx2; exact absurd hx2 (by decide)
        simp only [Function.comp_apply]
        rw [if_pos this]

theorem table (i : Iface) : ∀ m ∈ methods i, (i, m.name) ∉ foreign → ¬ ignored i m.name → (i, m.name) ≠ (.volume, .max_scalar) → soundB i m = true := by
  cases i <;> decide

/-- C102. For every class defined in Python that implements an interface, every method of the interface and every call of it by the library: if the class defines the method, that method runs on the arguments of the call, in order, and the caller gets
    what it returns or raises and sees its changes to objects passed by reference; otherwise the implementation of the interface runs, or there is an exception if it has none.
    Missing: the methods with parameters or results of types that are not known to Python (`foreign`), the methods without trampoline (`ignored`), max_scalar of volumes, and calls with objects passed by reference that Python does not know yet: for these the claim is false
    (C102_negation_foreign, C102_negation_ignored, C102_negation_max_scalar, C102_negation_rng, C102_negation_build). -/
theorem C102_call_partial (i : Iface) (m : Method) (hm : m ∈ methods i) (hf : (i, m.name) ∉ foreign) (hi : ¬ ignored i m.name) (hv : (i, m.name) ≠ (.volume, .max_scalar))
    (c : PyClass) (args : ℕ → Actual) (hk : Known m args) : call i m c args = expected m c args :=
  call_eq_expected (sound_of (table i m hm hf hi hv)) c args hk

/-- A class that implements one method. -/
def only (n : Name) (f : List PyVal → PyRes) : PyClass := fun k => if k = n then some f else none

/-- Film.set_pixel. -/
def setPixel : Method := ⟨.set_pixel, true, [⟨.int, .value⟩, ⟨.int, .value⟩, ⟨.vec3, .value⟩], .void, false⟩
/-- Film.accum. -/
def accum : Method := ⟨.accum, true, [⟨.film, .ptr⟩], .void, false⟩
/-- Medium.eval_transmittance. -/
def transmittance : Method := ⟨.eval_transmittance, true, [⟨.rng, .mutRef⟩, ⟨.ray, .value⟩, ⟨.float, .value⟩, ⟨.float, .value⟩], .vec3, false⟩
/-- Volume.max_scalar. -/
def maxScalar : Method := ⟨.max_scalar, true, [], .float, false⟩
/-- Accel.build. -/
def accelBuild : Method := ⟨.build, true, [⟨.scene, .constRef⟩], .void, false⟩
/-- Volume.eval_scalar. -/
def evalScalar : Method := ⟨.eval_scalar, false, [⟨.vec3, .value⟩], .float, false⟩

/-- The hypotheses of C102_call_partial are met by calls of set_pixel and accum of films, of eval_transmittance with a generator known to Python, and of eval_scalar. -/
example (c : PyClass) (args : ℕ → Actual) : call .film setPixel c args = expected setPixel c args ∧ call .film accum c args = expected accum c args := by
  refine ⟨C102_call_partial _ _ (by decide) (by decide) (by decide) (by decide) c args ?_, C102_call_partial _ _ (by decide) (by decide) (by decide) (by decide) c args ?_⟩
  · intro k p hp hr
    match k, hp with
    | 0, hp => cases hp; exact absurd hr (by decide)
    | 1, hp => cases hp; exact absurd hr (by decide)
    | 2, hp => cases hp; exact absurd hr (by decide)
    | k + 3, hp => exact absurd hp (by simp [setPixel])
  · intro k p hp hr
    match k, hp with
    | 0, hp => cases hp; exact absurd hr (by decide)
    | k + 1, hp => exact absurd hp (by simp [accum])

/-- A film in Python that counts the pixels of the film it is given: the caller sees the change. -/
example : call .film accum (only .accum fun _ => .returns .none fun _ => .obj .film 7) (fun _ => ⟨.obj .film 3, false⟩) = .result .none [(0, .obj .film 7)] := by decide

/-- Without an implementation in Python: set_pixel is an exception, eval_scalar is the implementation of the interface. -/
example : call .film setPixel (fun _ => none) (fun _ => ⟨.none, false⟩) = .pureVirtual ∧ call .volume evalScalar (fun _ => none) (fun _ => ⟨.none, false⟩) = .inherited := by decide

/-- The decidable reason for which a foreign method fails: a parameter that is passed on, or the result, has an unknown type. -/
def foreignB (i : Iface) (m : Method) : Bool :=
  match (trampoline i).find? (fun s => s.name = m.name) with
  | some s => decide (s.target = m.name) &&
      ((s.passed.filterMap fun k => (m.params[k]?).map fun p => (k, p)).any (fun kp => !hasCaster kp.2.ty && !registered kp.2.ty) || (!hasCaster m.ret && !registered m.ret && !m.retNone))
  | none => false

theorem foreign_table (i : Iface) : ∀ m ∈ methods i, (i, m.name) ∈ foreign → foreignB i m = true := by
  cases i <;> decide

theorem load_unknown (t : CTy) (h1 : hasCaster t = false) (h2 : registered t = false) (v : PyVal) : load t false v = none := by
  cases t
  all_goals first
    | exact absurd h1 (by decide)
    | exact absurd h2 (by decide)
    | skip
  all_goals cases v <;> simp [load, hasCaster, registered]

/-- A call of a method with a parameter or a result of a type not known to Python never succeeds, whatever the class implements: sample_component, sample_direction and eval of materials, sample_direction of phase functions, bound of volumes, sample_ray, sample_direction,
    sample_position and sample_direct of cameras and lights, pdf_ray, pdf_position and pdf_direct of lights, and two methods of scenes. So no material, phase function, camera or light that takes part in rendering can be implemented in Python. -/
theorem C102_negation_foreign (i : Iface) (m : Method) (hm : m ∈ methods i) (hf : (i, m.name) ∈ foreign) (c : PyClass) (f : List PyVal → PyRes) (hc : c m.name = some f) (args : ℕ → Actual) :
    call i m c args = .castError ∨ ∃ e, call i m c args = .pyError e := by
  have h := foreign_table i m hm hf
  unfold foreignB at h
  unfold call
  split at h
  · rename_i s hs
    rw [hs]
    simp only [Bool.and_eq_true, decide_eq_true_eq, Bool.or_eq_true, List.any_eq_true, Bool.not_eq_true'] at h
    obtain ⟨ht, h⟩ := h
    show dispatch s m c args = _ ∨ ∃ e, dispatch s m c args = _
    unfold dispatch
    rw [ht, hc]
    dsimp only
    rcases h with ⟨kp, hkp, h1, h2⟩ | ⟨⟨h1, h2⟩, h3⟩
    · rw [if_neg]
      · exact Or.inl rfl
      · intro hall
        have := List.all_eq_true.mp hall kp hkp
        rw [converts, h1, h2] at this
        exact absurd this (by simp)
    · split
      · split
        · exact Or.inr ⟨_, rfl⟩
        · rw [h3, load_unknown _ h1 h2]
          exact Or.inl rfl
      · exact Or.inl rfl
  · exact absurd h (by decide)

example : ∃ m ∈ methods .material, (Iface.material, m.name) ∈ foreign := ⟨⟨.eval, true, [⟨.pointGeometry, .constRef⟩, ⟨.vec3, .value⟩, ⟨.vec3, .value⟩, ⟨.int, .value⟩, ⟨.transDir, .value⟩, ⟨.bool, .value⟩], .vec3, false⟩, by decide, by decide⟩

theorem ignored_table (i : Iface) : ∀ m ∈ methods i, ignored i m.name → (trampoline i).find? (fun s => s.name = m.name) = none := by
  cases i <;> decide

/-- The implementation in Python of a method without trampoline is never used: the underlying components of an asset and its values, splat of films, eval_alpha, has_alpha and buffer of textures, march of volumes, set_scene_bound and is_env of lights. -/
theorem C102_negation_ignored (i : Iface) (m : Method) (hm : m ∈ methods i) (hi : ignored i m.name) (c : PyClass) (args : ℕ → Actual) : call i m c args = .inherited := by
  unfold call
  rw [ignored_table i m hm hi]

/-- A light that says in Python that it is an environment light. -/
example : (⟨.is_env, false, [], .bool, false⟩ : Method) ∈ methods .light ∧ ignored .light .is_env ∧
    expected ⟨.is_env, false, [], .bool, false⟩ (only .is_env fun _ => .returns (.bool true) fun _ => .none) (fun _ => ⟨.none, false⟩) = .result (.bool true) [] := by decide

/-- max_scalar of a volume implemented in Python does not depend on the implementation of max_scalar: has_scalar is called. -/
theorem C102_negation_max_scalar_ignored (c c' : PyClass) (h : c .has_scalar = c' .has_scalar) (args : ℕ → Actual) : call .volume maxScalar c args = call .volume maxScalar c' args := by
  have : (trampoline .volume).find? (fun s => s.name = maxScalar.name) = some ⟨.max_scalar, .has_scalar, true, []⟩ := by decide
  unfold call
  rw [this]
  show dispatch _ _ _ _ = dispatch _ _ _ _
  unfold dispatch
  dsimp only
  rw [h]

/-- The volume of the next theorem: density at most 5. -/
def dense : PyClass := fun n =>
  match n with
  | .has_scalar => some fun _ => .returns (.bool true) fun _ => .none
  | .max_scalar => some fun _ => .returns (.float 5) fun _ => .none
  | _ => none

/-- A volume whose max_scalar is 5 is used with the majorant 1. -/
theorem C102_negation_max_scalar (args : ℕ → Actual) : expected maxScalar dense args = .result (.float 5) [] ∧ call .volume maxScalar dense args = .result (.float 1) [] := by
  constructor
  · rfl
  · rfl

/-- A medium implemented in Python draws its random numbers from a copy of the generator: whatever the method does, the generator of the caller is not advanced (unless it is an object that was created in Python). So the renderer uses the same numbers again. -/
theorem C102_negation_rng (f : List PyVal → PyRes) (args : ℕ → Actual) (hw : (args 0).wrapped = false) (v : PyVal) (os : List (ℕ × PyVal))
    (h : call .medium transmittance (only .eval_transmittance f) args = .result v os) : os = [(0, (args 0).val)] := by
  have ht : (trampoline .medium).find? (fun s => s.name = transmittance.name) = some ⟨.eval_transmittance, .eval_transmittance, true, [0, 1, 2, 3]⟩ := by decide
  unfold call at h
  rw [ht] at h
  change dispatch _ _ _ _ = _ at h
  unfold dispatch at h
  simp only [only, if_true] at h
  split at h
  · split at h
    · exact absurd h (by simp)
    · split at h
      · exact absurd h (by simp)
      · rw [Outcome.result.injEq] at h
        rw [← h.2]
        have : shares ⟨.rng, .mutRef⟩ (args 0) = false := by rw [shares, hw]; rfl
        simp [transmittance, this]
  · exact absurd h (by simp)

/-- Such a call: the method leaves the generator in another state. -/
example : let f : List PyVal → PyRes := fun _ => .returns (.obj .vec3 1) fun _ => .obj .rng 2
    let args : ℕ → Actual := fun k => ⟨if k = 0 then .obj .rng 1 else .none, false⟩
    call .medium transmittance (only .eval_transmittance f) args = .result (.obj .vec3 1) [(0, .obj .rng 1)] ∧
    expected transmittance (only .eval_transmittance f) args = .result (.obj .vec3 1) [(0, .obj .rng 2)] := by decide

/-- build of an acceleration structure implemented in Python fails for a scene that has no Python object. -/
theorem C102_negation_build (f : List PyVal → PyRes) (args : ℕ → Actual) (hw : (args 0).wrapped = false) : call .accel accelBuild (only .build f) args = .castError := by
  have ht : (trampoline .accel).find? (fun s => s.name = accelBuild.name) = some ⟨.build, .build, true, [0]⟩ := by decide
  unfold call
  rw [ht]
  show dispatch _ _ _ _ = _
  unfold dispatch
  simp [only, accelBuild, converts, hasCaster, registered, abstract_, hw]

/-- C102, saving. A component or renderer implemented in Python with save and load gets back exactly the string that its save returned, on any machine, and the rest of the archive is left to the other components.
    Missing: the other interfaces (C102_negation_save). -/
theorem C102_save_load_partial {σ : Type} (i : Iface) (hi : i = .component ∨ i = .renderer) (w r : Endian) (c : PySerial σ) (f : σ → List ℕ) (g : List ℕ → σ → σ) (hs : c.save = some f) (hl : c.load = some g)
    (s s' : σ) (hlen : (f s).length < 256 ^ 8) (hb : ∀ x ∈ f s, x < 256) (rest : Bytes) :
    loadFrom i r (decide (w ≠ r)) c (saveTo i w c s ++ rest) s' = some (g (f s) s', rest) := by
  have hser : serializes i = true := by rcases hi with rfl | rfl <;> rfl
  unfold loadFrom saveTo
  rw [if_pos hser, if_pos hser, hs, hl]
  dsimp only
  rw [dec_enc w r _ rfl (.seq (.word 1)) (f s) ⟨hlen, fun x hx => by simpa [Ty.Valid] using hb x hx⟩ rest]
  rfl

/-- save and load of a class in Python are not used for the other interfaces: nothing is written, and loading leaves the state as it was. -/
theorem C102_negation_save {σ : Type} (i : Iface) (h1 : i ≠ .component) (h2 : i ≠ .renderer) (w r : Endian) (swap : Bool) (c : PySerial σ) (s s' : σ) (bs : Bytes) :
    saveTo i w c s = [] ∧ loadFrom i r swap c bs s' = some (s', bs) := by
  have hser : serializes i = false := by cases i <;> first | rfl | exact absurd rfl h1 | exact absurd rfl h2
  unfold loadFrom saveTo
  rw [hser]
  exact ⟨rfl, rfl⟩

/-- A renderer and a material that count: only the renderer is restored. -/
example : let c : PySerial ℕ := ⟨some fun n => [n], some fun l _ => l.sum⟩
    loadFrom .renderer .little false c (saveTo .renderer .little c 42) 0 = some (42, []) ∧ loadFrom .material .little false c (saveTo .material .little c 42) 0 = some (0, []) := by
  constructor
  · have := C102_save_load_partial .renderer (Or.inr rfl) .little .little (⟨some fun n => [n], some fun l _ => l.sum⟩ : PySerial ℕ) _ _ rfl rfl 42 0 (by decide) (by decide) []
    simpa using this
  · exact (C102_negation_save .material (by decide) (by decide) .little .little false _ 42 0 _).2

end LM.PyTramp
