import Verif.Model.PyLife
/-
  C98: component instances live as long as C++ or Python uses them.
-/
namespace LM.PyLife

/-! ### Specification -/

/-- A call of a virtual function by the C++ side reaches the class defined in Python: its object exists. -/
def Overridden (s : Inst) : Prop := ∃ n, s.count = some n

/-- Nothing refers to the instance any more. -/
def Unused (s : Inst) : Prop := s.owned = false ∧ s.users = 0

/-! ### Invariants -/

/-- Instances implemented in Python. -/
structure PyInv (s : Inst) : Prop where
  kind : s.kind = .python
  alive : s.alive = true
  holder : s.holder = true
  owned : s.owned = true → s.release = true
  owner : s.release = true → s.ownerRef = true
  count : s.count = if s.users + (if s.release then 1 else 0) = 0 then none else some (s.users + (if s.release then 1 else 0))

theorem pyInv_step {s : Inst} (h : PyInv s) (o : Op) : ∃ s', step s o = some s' ∧ PyInv s' ∧ (s.owned = false → s.release = true → s'.release = true ∧ s'.owned = false) := by
  obtain ⟨hk, ha, hh, ho, hr, hc⟩ := h
  obtain ⟨kind, alive, owned, ownerRef, release, count, holder, users⟩ := s
  simp only at hk ha hh ho hr hc
  subst hk ha hh
  cases owned <;> cases release <;> simp at ho hr hc <;> rcases users with _ | _ | u <;> (try simp at hc) <;> subst hc <;> cases o <;>
    simp_all [step, decref, deleter] <;> (refine ⟨?_, ?_, ?_, ?_, ?_, ?_⟩ <;> simp_all)

theorem pyInv_run (os : List Op) : ∀ {s : Inst}, PyInv s → ∃ s', run s os = some s' ∧ PyInv s' ∧ (s.owned = false → s.release = true → s'.release = true ∧ s'.owned = false) := by
  induction os with
  | nil => intro s h; exact ⟨s, rfl, h, fun a b => ⟨b, a⟩⟩
  | cons o os ih =>
    intro s h
    obtain ⟨s', h1, h2, h3⟩ := pyInv_step h o
    obtain ⟨s'', h4, h5, h6⟩ := ih h2
    exact ⟨s'', by simp [run, h1, h4], h5, fun a b => h6 (h3 a b).2 (h3 a b).1⟩

theorem pyRel_step {s : Inst} (h : PyInv s) (hr : s.release = s.owned) (o : Op) (t : Inst) (ht : step s o = some t) :
    t.release = t.owned ∧ (t.owned = true ↔ s.owned = true ∧ o ≠ .destroy) := by
  obtain ⟨hk, ha, hh, ho, hr', hc⟩ := h
  obtain ⟨kind, alive, owned, ownerRef, release, count, holder, users⟩ := s
  simp only at hk ha hh ho hr' hc hr
  subst hk ha hh hr
  cases release <;> simp at hr' hc <;> rcases users with _ | _ | u <;> (try simp at hc) <;> subst hc <;> cases o <;>
    simp_all [step, decref, deleter] <;> subst ht <;> simp

theorem pyRel_run (os : List Op) : ∀ {s : Inst}, PyInv s → s.release = s.owned → ∀ t, run s os = some t →
    t.release = t.owned ∧ (t.owned = true ↔ s.owned = true ∧ .destroy ∉ os) := by
  induction os with
  | nil =>
    intro s _ hr t ht
    simp only [run, Option.some.injEq] at ht; subst ht
    exact ⟨hr, by simp⟩
  | cons o os ih =>
    intro s h hr t ht
    obtain ⟨s', h1, h2, -⟩ := pyInv_step h o
    obtain ⟨h3, h4⟩ := pyRel_step h hr o s' h1
    obtain ⟨h5, h6⟩ := ih h2 h3 t (by simpa [run, h1] using ht)
    refine ⟨h5, ?_⟩
    rw [h6, h4]
    simp only [List.mem_cons, not_or, and_assoc, ne_eq]
    constructor <;> (rintro ⟨a, b, c⟩; exact ⟨a, fun h => b h.symm, c⟩)

/-- Instances implemented in C++ and created by a Python program. -/
structure NatInv (s : Inst) : Prop where
  kind : s.kind = .native
  owned : s.owned = false
  release : s.release = true
  alive : s.alive = decide (0 < s.users)
  holder : s.holder = true
  count : s.count = if s.users = 0 then none else some s.users

theorem natInv_step {s : Inst} (h : NatInv s) (o : Op) : ∃ s', step s o = some s' ∧ NatInv s' := by
  obtain ⟨hk, ho, hr, ha, hh, hc⟩ := h
  obtain ⟨kind, alive, owned, ownerRef, release, count, holder, users⟩ := s
  simp only at hk ha hh ho hr hc
  subst hk hh ho hr
  rcases users with _ | _ | u <;> simp at ha hc <;> subst ha <;> subst hc <;> cases o <;>
    simp_all [step, decref, deleter, delete] <;> (refine ⟨?_, ?_, ?_, ?_, ?_, ?_⟩ <;> simp_all)

theorem natInv_run (os : List Op) : ∀ {s : Inst}, NatInv s → ∃ s', run s os = some s' ∧ NatInv s' := by
  induction os with
  | nil => intro s h; exact ⟨s, rfl, h⟩
  | cons o os ih =>
    intro s h
    obtain ⟨s', h1, h2⟩ := natInv_step h o
    obtain ⟨s'', h4, h5⟩ := ih h2
    exact ⟨s'', by simp [run, h1, h4], h5⟩

/-- Instances implemented in C++ and owned by the C++ side at first. -/
structure AssetInv (s : Inst) : Prop where
  kind : s.kind = .native
  alive : s.alive = s.owned
  release : s.release = true
  holder : s.holder = false
  count : s.count = if s.users = 0 then none else some s.users

/-- A use of a reference after the owner has let go of the instance. -/
def Dangling (s : Inst) (o : Op) : Prop := s.owned = false ∧ 0 < s.users ∧ o = .use

theorem assetInv_step {s : Inst} (h : AssetInv s) (o : Op) :
    (Dangling s o ∧ step s o = none) ∨ ∃ s', ¬ Dangling s o ∧ step s o = some s' ∧ AssetInv s' ∧ (s'.owned = true ↔ s.owned = true ∧ o ≠ .destroy) := by
  obtain ⟨hk, ha, hr, hh, hc⟩ := h
  obtain ⟨kind, alive, owned, ownerRef, release, count, holder, users⟩ := s
  simp only at hk ha hh hr hc
  subst hk hh hr ha
  cases alive <;> rcases users with _ | _ | u <;> simp at hc <;> subst hc <;> cases o <;>
    simp_all [step, decref, deleter, delete, Dangling] <;> (refine ⟨?_, ?_, ?_, ?_, ?_⟩ <;> simp_all)

theorem assetInv_run (os : List Op) : ∀ {s : Inst}, AssetInv s →
    (run s os = none ↔ ∃ pre post t, os = pre ++ .use :: post ∧ run s pre = some t ∧ t.owned = false ∧ 0 < t.users)
    ∧ ∀ t, run s os = some t → AssetInv t ∧ (t.owned = true ↔ s.owned = true ∧ .destroy ∉ os) := by
  induction os with
  | nil =>
    intro s h
    refine ⟨by simp [run], fun t ht => ?_⟩
    simp only [run, Option.some.injEq] at ht; subst ht
    exact ⟨h, by simp⟩
  | cons o os ih =>
    intro s h
    rcases assetInv_step h o with ⟨⟨h1, h2, rfl⟩, h3⟩ | ⟨s', h1, h3, h4, h5⟩
    · refine ⟨⟨fun _ => ⟨[], os, s, rfl, rfl, h1, h2⟩, fun _ => by simp [run, h3]⟩, fun t ht => ?_⟩
      simp [run, h3] at ht
    · obtain ⟨i1, i2⟩ := ih h4
      have e : run s (o :: os) = run s' os := by simp [run, h3]
      rw [e]
      refine ⟨i1.trans ⟨?_, ?_⟩, fun t ht => ⟨(i2 t ht).1, ?_⟩⟩
      · rintro ⟨pre, post, t, rfl, a, b⟩
        exact ⟨o :: pre, post, t, rfl, by simp [run, h3, a], b⟩
      · rintro ⟨pre, post, t, a, b, c, d⟩
        cases pre with
        | nil =>
          simp only [List.nil_append, List.cons.injEq] at a
          simp only [run, Option.some.injEq] at b
          subst b
          exact absurd ⟨c, d, a.1⟩ h1
        | cons o' pre =>
          simp only [List.cons_append, List.cons.injEq] at a
          obtain ⟨rfl, rfl⟩ := a
          exact ⟨pre, post, t, rfl, by simpa [run, h3] using b, c, d⟩
      · rw [(i2 t ht).2, h5]
        simp only [List.mem_cons, not_or, and_assoc, ne_eq]
        constructor
        · rintro ⟨a, b, c⟩; exact ⟨a, fun h => b h.symm, c⟩
        · rintro ⟨a, b, c⟩; exact ⟨a, fun h => b h.symm, c⟩

theorem pyInv_created : PyInv (created .python) := ⟨rfl, rfl, rfl, fun _ => rfl, fun _ => rfl, rfl⟩
theorem pyInv_createdFromPython : PyInv (createdFromPython .python) := ⟨rfl, rfl, rfl, fun h => (Bool.false_ne_true h).elim, fun _ => rfl, rfl⟩
theorem pyInv_constructed : PyInv constructed := ⟨rfl, rfl, rfl, fun h => (Bool.false_ne_true h).elim, fun h => (Bool.false_ne_true h).elim, rfl⟩

theorem overridden_of_inv {s : Inst} (h : PyInv s) (hu : s.owned = true ∨ 0 < s.users) : Overridden s := by
  refine ⟨s.users + (if s.release then 1 else 0), ?_⟩
  rw [h.count, if_neg]
  rcases hu with hu | hu
  · rw [h.owned hu]; simp
  · omega

/-! ### Theorems -/

/-- **C98 (instances of Python classes).** An instance of a class defined in Python, however it was made, is never used or released wrongly, in any history of references taken, copied and dropped, calls and its release by C++. While C++ owns it, even if the Python
    program has dropped all its references, and while the Python program has a reference, even if C++ has let go of it, the Python object exists and calls reach its methods. -/
theorem C98_python (s : Inst) (hs : s = created .python ∨ s = createdFromPython .python ∨ s = constructed) (os : List Op) :
    ∃ t, run s os = some t ∧ (t.owned = true ∨ 0 < t.users → Overridden t) := by
  have h : PyInv s := by rcases hs with rfl | rfl | rfl; exacts [pyInv_created, pyInv_createdFromPython, pyInv_constructed]
  obtain ⟨t, h1, h2, -⟩ := pyInv_run os h
  exact ⟨t, h1, overridden_of_inv h2⟩

/-- **C98 (released).** When C++ has let go of an instance of a Python class and the Python program has no reference left, the Python object has been deallocated. -/
theorem C98_released (os : List Op) (t : Inst) (h : run (created .python) os = some t) (hd : .destroy ∈ os) (hu : t.users = 0) : ¬ Overridden t := by
  obtain ⟨t', h1, h2, -⟩ := pyInv_run os pyInv_created
  rw [h] at h1; cases h1
  obtain ⟨h3, h4⟩ := pyRel_run os pyInv_created rfl t h
  have h5 : t.release = false := by
    rw [h3]
    by_contra hc
    exact (h4.1 (by simpa using hc)).2 hd
  rintro ⟨n, hn⟩
  rw [h2.count, h5, hu] at hn
  simp at hn

/-- **C98 (created in Python).** An instance of a component implemented in C++ that a Python program creates is never used or deleted wrongly, and is deleted exactly when the last reference is dropped. -/
theorem C98_native (os : List Op) : ∃ t, run (createdFromPython .native) os = some t ∧ (t.alive = true ↔ 0 < t.users) := by
  have h : NatInv (createdFromPython .native) := ⟨rfl, rfl, rfl, rfl, rfl, rfl⟩
  obtain ⟨t, h1, h2⟩ := natInv_run os h
  exact ⟨t, h1, by rw [h2.alive]; simp⟩

theorem assetInv_created : AssetInv (created .native) := ⟨rfl, rfl, rfl, rfl, rfl⟩

/-- **C98 (assets implemented in C++).** An asset is deleted exactly when its owner lets go of it, whatever the Python program does with references to it, and is not deleted twice: the only wrong history is one in which the Python program calls a member
    function through a reference it kept after that.
    Missing: references kept by a Python program stay usable (false, C98_negation_dangling). -/
theorem C98_asset_partial (os : List Op) :
    (run (created .native) os = none ↔ ∃ pre post t, os = pre ++ .use :: post ∧ run (created .native) pre = some t ∧ t.owned = false ∧ 0 < t.users)
    ∧ (∀ t, run (created .native) os = some t → (t.alive = true ↔ .destroy ∉ os))
    ∧ (.destroy ∉ os → ∃ t, run (created .native) os = some t ∧ t.alive = true) := by
  obtain ⟨h1, h2⟩ := assetInv_run os assetInv_created
  have h3 : ∀ t, run (created .native) os = some t → (t.alive = true ↔ .destroy ∉ os) := fun t ht => by
    obtain ⟨i, j⟩ := h2 t ht
    rw [i.alive, j]
    simp [created]
  refine ⟨h1, h3, fun hd => ?_⟩
  cases hr : run (created .native) os with
  | some t => exact ⟨t, rfl, (h3 t hr).2 hd⟩
  | none =>
    obtain ⟨pre, post, t, rfl, a, b, -⟩ := h1.1 hr
    have := (assetInv_run pre assetInv_created).2 t a
    rw [this.2.2 ⟨rfl, fun hm => hd (List.mem_append_left _ hm)⟩] at b
    cases b

/-- **C98, negation.** A reference that a Python program keeps to an asset implemented in C++ dangles once the asset is replaced: the next call through it is undefined. -/
theorem C98_negation_dangling : run (created .native) [.get, .use, .destroy] ≠ none ∧ run (created .native) [.get, .use, .destroy, .use] = none := by
  constructor
  · simp [run, created, step, deleter, delete]
  · simp [run, created, step, deleter, delete]

/-- **C98, negation.** The C++ part of an instance of a Python class is never deleted, also when nothing refers to the instance any more: the release function does not delete it, and clears itself, so the destruction of the Python object does not either. -/
theorem C98_negation_leak (s : Inst) (hs : s = created .python ∨ s = createdFromPython .python ∨ s = constructed) (os : List Op) (t : Inst) (h : run s os = some t) : t.alive = true := by
  have hi : PyInv s := by rcases hs with rfl | rfl | rfl; exacts [pyInv_created, pyInv_createdFromPython, pyInv_constructed]
  obtain ⟨t', h1, h2, -⟩ := pyInv_run os hi
  rw [h] at h1; cases h1
  exact h2.alive

/-- **C98, negation.** An instance of a Python class that a Python program makes with `create` is not even deallocated: the reference its C++ part has to it is never given up. -/
theorem C98_negation_create (os : List Op) (t : Inst) (h : run (createdFromPython .python) os = some t) : Overridden t := by
  obtain ⟨t', h1, h2, h3⟩ := pyInv_run os pyInv_createdFromPython
  rw [h] at h1; cases h1
  refine ⟨t.users + 1, ?_⟩
  rw [h2.count, (h3 rfl rfl).1]
  simp

/-- A history in which everything happens, with an instance that nothing refers to at the end. -/
example : ∃ t, run (created .python) [.get, .copy, .drop, .use, .call, .destroy, .use, .drop] = some t ∧ Unused t ∧ ¬ Overridden t := by
  refine ⟨⟨.python, true, false, true, false, none, true, 0⟩, by simp [run, created, step, decref, deleter], ⟨rfl, rfl⟩, ?_⟩
  rintro ⟨n, h⟩; cases h

/-- The instance of a script that makes a component and drops it. -/
example : ∃ t, run (createdFromPython .native) [.use, .copy, .drop, .drop] = some t ∧ t.alive = false :=
  ⟨⟨.native, false, false, false, true, none, true, 0⟩, by simp [run, createdFromPython, step, decref, deleter, delete], rfl⟩

end LM.PyLife
