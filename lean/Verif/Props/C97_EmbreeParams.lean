import Verif.Model.EmbreeParams
import Mathlib.Algebra.Order.Ring.Rat
import Mathlib.Tactic.NormNum
/-
  C97: the options given for the Embree acceleration structures are used.
-/
namespace LM.EmbreeParams

variable {F : Type} [One F]

/-! ### Specification -/

/-- The value of an option: the given one, or the default. -/
def IsOpt {α : Type} (o : Opt α) (default a : α) : Prop := o = .val a ∨ (o = .missing ∧ a = default)

/-- Every option that is given has a value of the right type. -/
def WellTyped (p : Params F) : Prop :=
  p.dynamic ≠ .wrong ∧ p.compact ≠ .wrong ∧ p.robust ≠ .wrong ∧ p.filter ≠ .wrong ∧ p.quality ≠ .wrong ∧ p.maxDepth ≠ .wrong ∧ p.maxBranchingFactor ≠ .wrong ∧
    p.sahBlockSize ≠ .wrong ∧ p.minLeafSize ≠ .wrong ∧ p.maxLeafSize ≠ .wrong ∧ p.travcost ≠ .wrong ∧ p.intcost ≠ .wrong

/-- The flags are exactly the requested ones. -/
def FlagsAs (p : Params F) (sf : ℕ) : Prop :=
  (sf.testBit 0 = true ↔ p.dynamic = .val true) ∧ (sf.testBit 1 = true ↔ p.compact = .val true) ∧ (sf.testBit 2 = true ↔ p.robust = .val true) ∧ (sf.testBit 3 = true ↔ p.filter = .val true) ∧ ∀ i, 4 ≤ i → sf.testBit i = false

/-! ### Theorems -/

theorem value_iff {α : Type} {o : Opt α} {d a : α} : o.value d = some a ↔ IsOpt o d a := by
  cases o <;> simp [Opt.value, IsOpt, eq_comm]

theorem value_wrong {α : Type} {o : Opt α} (d : α) (h : o ≠ .wrong) : ∃ a, o.value d = some a ∧ IsOpt o d a := by
  cases o with
  | missing => exact ⟨d, rfl, .inr ⟨rfl, rfl⟩⟩
  | val a => exact ⟨a, rfl, .inl rfl⟩
  | wrong => exact absurd rfl h

/-- C97. If every given option has a value of the right type, the structure is constructed, and its settings are the given values, or the defaults for options that are not given. -/
theorem C97_settings (junk : ℕ) (p : Params F) (h : WellTyped p) : ∃ a sf, construct junk p = some (a, sf) ∧ IsOpt p.quality 1 a.buildQuality ∧ IsOpt p.maxDepth 18 a.maxDepth ∧ IsOpt p.maxBranchingFactor 2 a.maxBranchingFactor ∧
    IsOpt p.sahBlockSize 1 a.sahBlockSize ∧ IsOpt p.minLeafSize 1 a.minLeafSize ∧ IsOpt p.maxLeafSize 32 a.maxLeafSize ∧ IsOpt p.travcost 1 a.traversalCost ∧ IsOpt p.intcost 1 a.intersectionCost := by
  obtain ⟨h1, h2, h3, h4, h5, h6, h7, h8, h9, h10, h11, h12⟩ := h
  obtain ⟨a1, e1, i1⟩ := value_wrong false h1
  obtain ⟨a2, e2, i2⟩ := value_wrong false h2
  obtain ⟨a3, e3, i3⟩ := value_wrong false h3
  obtain ⟨a4, e4, i4⟩ := value_wrong false h4
  obtain ⟨a5, e5, i5⟩ := value_wrong 1 h5
  obtain ⟨a6, e6, i6⟩ := value_wrong 18 h6
  obtain ⟨a7, e7, i7⟩ := value_wrong 2 h7
  obtain ⟨a8, e8, i8⟩ := value_wrong 1 h8
  obtain ⟨a9, e9, i9⟩ := value_wrong 1 h9
  obtain ⟨a10, e10, i10⟩ := value_wrong 32 h10
  obtain ⟨a11, e11, i11⟩ := value_wrong 1 h11
  obtain ⟨a12, e12, i12⟩ := value_wrong 1 h12
  obtain ⟨sf, hsf⟩ : ∃ sf, flagsFromJson junk p = some sf := ⟨_, by simp only [flagsFromJson, e1, e2, e3, e4, Option.bind_eq_bind, Option.bind_some]; rfl⟩
  refine ⟨⟨a5, a6, a7, a8, a9, a10, a11, a12⟩, sf, ?_, i5, i6, i7, i8, i9, i10, i11, i12⟩
  simp only [construct, argumentsFromJson, hsf, e5, e6, e7, e8, e9, e10, e11, e12, Option.bind_eq_bind, Option.bind_some]
  rfl

/-- C97. An option with a value of another type is refused. -/
theorem C97_refused (junk : ℕ) (p : Params F) (h : ¬ WellTyped p) : construct junk p = none := by
  by_contra hc
  obtain ⟨s, hs⟩ := Option.ne_none_iff_exists'.mp hc
  apply h
  simp only [construct, argumentsFromJson, flagsFromJson, Option.bind_eq_bind, Option.bind_eq_some_iff] at hs
  obtain ⟨_, ⟨_, q1, _, q2, _, q3, _, q4, _, q5, _, q6, _, q7, _, q8, _⟩, _, ⟨_, q9, _, q10, _, q11, _, q12, _⟩, _⟩ := hs
  refine ⟨?_, ?_, ?_, ?_, ?_, ?_, ?_, ?_, ?_, ?_, ?_, ?_⟩ <;> intro e <;> simp_all [Opt.value]

/-- C97. Settings written to JSON and read again are the same. -/
theorem C97_round_trip (a : BuildArguments F) : argumentsFromJson (argumentsToJson a) = some a := rfl

/-- C97. The flags handed to the library are exactly the requested ones, if "dynamic" is requested, or if the JSON library initialises the variable and "compact" or "robust" is requested, or if no flag is requested. Missing: the other combinations, see C97_negation_filter and C97_negation_uninitialised. -/
theorem C97_flags_partial (junk : ℕ) (p : Params F) (s : BuildArguments F × ℕ) (hs : construct junk p = some s)
    (h : p.dynamic = .val true ∨ (junk = 0 ∧ (p.compact = .val true ∨ p.robust = .val true)) ∨ (p.compact ≠ .val true ∧ p.robust ≠ .val true ∧ p.filter ≠ .val true)) : FlagsAs p (handed s).1 := by
  obtain ⟨a, sf⟩ := s
  have hf : flagsFromJson junk p = some sf := by
    simp only [construct, Option.bind_eq_bind, Option.bind_eq_some_iff, Option.pure_def, Option.some.injEq, Prod.mk.injEq] at hs
    obtain ⟨_, _, _, h1, _, rfl⟩ := hs
    exact h1
  simp only [flagsFromJson, Option.bind_eq_bind, Option.bind_eq_some_iff, Option.pure_def, Option.some.injEq] at hf
  obtain ⟨d, hd, c, hc, r, hr, f, hf, e⟩ := hf
  have key : ∀ {o : Opt Bool} {b : Bool}, o.value false = some b → (o = .val true ↔ b = true) := by
    intro o b ho
    cases o with
    | missing => simp [Opt.value] at ho; simp [← ho]
    | val x => simp [Opt.value] at ho; simp [← ho]
    | wrong => simp [Opt.value] at ho
  rw [FlagsAs, handed, key hd, key hc, key hr, key hf]
  rw [Ne, Ne, Ne, key hd, key hc, key hr, key hf] at h
  subst e
  have big : ∀ n i, n < 16 → 4 ≤ i → Nat.testBit n i = false := by
    intro n i hn hi
    have h16 : (2 : ℕ) ^ 4 ≤ 2 ^ i := Nat.pow_le_pow_right (by norm_num) hi
    exact Nat.testBit_lt_two_pow (by omega)
  have hj : (if d || c || r then (if f then (if r then (if c then (if d then 1 else junk) ||| 2 else if d then 1 else junk) ||| 4 else if c then (if d then 1 else junk) ||| 2 else if d then 1 else junk) ||| 8 else if r then (if c then (if d then 1 else junk) ||| 2 else if d then 1 else junk) ||| 4 else if c then (if d then 1 else junk) ||| 2 else if d then 1 else junk) else 0) =
      (if d then 1 else 0) + (if c then 2 else 0) + (if r then 4 else 0) + (if f then 8 else 0) := by
    rcases h with h | ⟨rfl, h⟩ | ⟨h1, h2, h3⟩
    · subst h
      cases c <;> cases r <;> cases f <;> simp
    · cases d <;> cases c <;> cases r <;> cases f <;> first | (simp; done) | (simp at h; done)
    · cases d <;> cases c <;> cases r <;> cases f <;> first | (simp; done) | (simp at h1; done) | (simp at h2; done) | (simp at h3; done)
  dsimp only
  rw [hj]
  refine ⟨?_, ?_, ?_, ?_, fun i => big _ i ?_⟩
  all_goals cases d <;> cases c <;> cases r <;> cases f <;> decide

/-- C97. "filter" alone is ignored. -/
theorem C97_negation_filter (junk : ℕ) (p : Params F) (hp : WellTyped p) (hd : p.dynamic ≠ .val true) (hc : p.compact ≠ .val true) (hr : p.robust ≠ .val true) (hflt : p.filter = .val true) :
    ∃ s, construct junk p = some s ∧ (handed s).1.testBit 3 = false ∧ ¬ FlagsAs p (handed s).1 := by
  obtain ⟨a, sf, hs, _⟩ := C97_settings junk p hp
  have hsf : sf = 0 := by
    have hf : flagsFromJson junk p = some sf := by
      simp only [construct, Option.bind_eq_bind, Option.bind_eq_some_iff, Option.pure_def, Option.some.injEq, Prod.mk.injEq] at hs
      obtain ⟨_, _, _, h1, _, rfl⟩ := hs
      exact h1
    simp only [flagsFromJson, Option.bind_eq_bind, Option.bind_eq_some_iff, Option.pure_def, Option.some.injEq] at hf
    obtain ⟨d, ed, c, ec, r, er, f, _, e⟩ := hf
    have key : ∀ {o : Opt Bool} {b : Bool}, o ≠ .val true → o.value false = some b → b = false := by
      intro o b hn ho
      cases o with
      | missing => simpa [Opt.value, eq_comm] using ho
      | val x => cases x <;> simp_all [Opt.value]
      | wrong => simp [Opt.value] at ho
    rw [key hd ed, key hc ec, key hr er] at e
    simpa using e.symm
  subst hsf
  refine ⟨_, hs, by simp [handed], fun h => ?_⟩
  have := h.2.2.2.1.mpr hflt
  simp [handed] at this

/-- C97. If the variable is not initialised, "compact" without "dynamic" gives flags that depend on its content. -/
theorem C97_negation_uninitialised : ∃ p : Params F, WellTyped p ∧ ∃ s s', construct 0 p = some s ∧ construct 1 p = some s' ∧ (handed s).1 ≠ (handed s').1 := by
  refine ⟨⟨.missing, .val true, .missing, .missing, .missing, .missing, .missing, .missing, .missing, .missing, .missing, .missing⟩, by simp [WellTyped], _, _, rfl, rfl, ?_⟩
  simp [handed]

/-- C97. The other options have no effect: what is handed to the library depends only on the four flags and the quality. -/
theorem C97_negation_unused (junk : ℕ) (p p' : Params F) (s s' : BuildArguments F × ℕ) (hs : construct junk p = some s) (hs' : construct junk p' = some s')
    (hq : p.quality = p'.quality) (hd : p.dynamic = p'.dynamic) (hc : p.compact = p'.compact) (hr : p.robust = p'.robust) (hf : p.filter = p'.filter) : handed s = handed s' := by
  simp only [construct, argumentsFromJson, flagsFromJson, Option.bind_eq_bind, Option.bind_eq_some_iff, Option.pure_def, Option.some.injEq, hq, hd, hc, hr, hf] at hs hs'
  obtain ⟨_, ⟨_, q1, _, _, _, _, _, _, _, _, _, _, _, _, _, _, rfl⟩, _, ⟨_, q9, _, q10, _, q11, _, q12, rfl⟩, rfl⟩ := hs
  obtain ⟨_, ⟨_, r1, _, _, _, _, _, _, _, _, _, _, _, _, _, _, rfl⟩, _, ⟨_, r9, _, r10, _, r11, _, r12, rfl⟩, rfl⟩ := hs'
  simp_all [handed]

/-- C97. The flags are written as they were requested, so what is written can be read again. Missing: as in C97_flags_partial. -/
theorem C97_flags_written_partial (junk : ℕ) (p : Params F) (s : BuildArguments F × ℕ) (hs : construct junk p = some s)
    (h : p.dynamic = .val true ∨ (junk = 0 ∧ (p.compact = .val true ∨ p.robust = .val true)) ∨ (p.compact ≠ .val true ∧ p.robust ≠ .val true ∧ p.filter ≠ .val true)) :
    ((flagsToJson (handed s).1).1 = true ↔ p.dynamic = .val true) ∧ ((flagsToJson (handed s).1).2.1 = true ↔ p.compact = .val true) ∧
      ((flagsToJson (handed s).1).2.2.1 = true ↔ p.robust = .val true) ∧ ((flagsToJson (handed s).1).2.2.2 = true ↔ p.filter = .val true) :=
  let h' := C97_flags_partial junk p s hs h
  ⟨h'.1, h'.2.1, h'.2.2.1, h'.2.2.2.1⟩

/-- The hypotheses are met. -/
example : ∃ (p : Params ℚ) (s : _), WellTyped p ∧ construct 77 p = some s ∧ FlagsAs p (handed s).1 ∧ (handed s).1 = 5 ∧ (handed s).2 = 2 := by
  refine ⟨⟨.val true, .missing, .val true, .val false, .val 2, .missing, .missing, .missing, .missing, .missing, .missing, .missing⟩, _, by simp [WellTyped], rfl, ?_, rfl, rfl⟩
  exact C97_flags_partial 77 _ _ rfl (.inl rfl)

end LM.EmbreeParams
