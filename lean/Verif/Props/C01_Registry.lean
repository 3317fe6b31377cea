import Verif.Spec.Registry
namespace LM.Registry
open Spec
variable {F : Type}

theorem run_append (h : List (Op F)) (o : Op F) : run (h ++ [o]) = step (run h) o := by
  simp [run, List.foldl_append]

theorem live_snoc_reg (h : List (Op F)) (k a k' : Str) (f f' : Funcs F) :
    Live (h ++ [.reg k' a f']) k f ↔ (k' = k ∧ f' = f) ∨ (k' ≠ k ∧ Live h k f) := by
  constructor
  · rintro ⟨pre, post, a', heq, hpost⟩
    rcases List.eq_nil_or_concat post with rfl | ⟨post', x, rfl⟩
    · have := List.append_inj' heq (by simp)
      simp at this
      left; exact ⟨this.2.1, this.2.2.2⟩
    · rw [List.concat_eq_append, ← List.cons_append, ← List.append_assoc] at heq
      have h2 := List.append_inj' heq (by simp)
      have hx : x = .reg k' a f' := by simpa using h2.2.symm
      right
      refine ⟨?_, pre, post', a', h2.1, fun o ho => hpost o (by simp [ho])⟩
      have := hpost x (by simp)
      rw [hx] at this; exact this
  · rintro (⟨rfl, rfl⟩ | ⟨hne, pre, post, a', rfl, hpost⟩)
    · exact ⟨h, [], a, by simp, by simp⟩
    · refine ⟨pre, post ++ [.reg k' a f'], a', by simp, ?_⟩
      intro o ho
      rcases List.mem_append.mp ho with ho | ho
      · exact hpost o ho
      · have : o = .reg k' a f' := by simpa using ho
        subst this; exact hne

theorem live_snoc_unreg (h : List (Op F)) (k a k' : Str) (f : Funcs F) :
    Live (h ++ [.unreg k' a]) k f ↔ (k' ≠ k ∧ Live h k f) := by
  constructor
  · rintro ⟨pre, post, a', heq, hpost⟩
    rcases List.eq_nil_or_concat post with rfl | ⟨post', x, rfl⟩
    · have := List.append_inj' heq (by simp)
      simp at this
    · rw [List.concat_eq_append, ← List.cons_append, ← List.append_assoc] at heq
      have h2 := List.append_inj' heq (by simp)
      have hx : x = .unreg k' a := by simpa using h2.2.symm
      refine ⟨?_, pre, post', a', h2.1, fun o ho => hpost o (by simp [ho])⟩
      have := hpost x (by simp)
      rw [hx] at this; exact this
  · rintro ⟨hne, pre, post, a', rfl, hpost⟩
    refine ⟨pre, post ++ [.unreg k' a], a', by simp, ?_⟩
    intro o ho
    rcases List.mem_append.mp ho with ho | ho
    · exact hpost o ho
    · have : o = .unreg k' a := by simpa using ho
      subst this; exact hne

theorem alias_snoc_reg (h : List (Op F)) (a k a' k' : Str) (f' : Funcs F) :
    AliasTo (h ++ [.reg k' a' f']) a k ↔
      (a ≠ [] ∧ a' = a ∧ k' = k) ∨ (a' ≠ a ∧ AliasTo h a k) := by
  constructor
  · rintro ⟨hne, pre, post, f, heq, hpost⟩
    rcases List.eq_nil_or_concat post with rfl | ⟨post', x, rfl⟩
    · have := List.append_inj' heq (by simp)
      simp at this
      left; exact ⟨hne, this.2.2.1, this.2.1⟩
    · rw [List.concat_eq_append, ← List.cons_append, ← List.append_assoc] at heq
      have h2 := List.append_inj' heq (by simp)
      have hx : x = .reg k' a' f' := by simpa using h2.2.symm
      right
      have := hpost x (by simp)
      rw [hx] at this
      refine ⟨fun e => this ⟨e, hne⟩, hne, pre, post', f, h2.1, fun o ho => hpost o (by simp [ho])⟩
  · rintro (⟨hne, rfl, rfl⟩ | ⟨hna, hne, pre, post, f, rfl, hpost⟩)
    · exact ⟨hne, h, [], f', by simp, by simp⟩
    · refine ⟨hne, pre, post ++ [.reg k' a' f'], f, by simp, ?_⟩
      intro o ho
      rcases List.mem_append.mp ho with ho | ho
      · exact hpost o ho
      · have : o = .reg k' a' f' := by simpa using ho
        subst this; exact fun e => hna e.1

theorem alias_snoc_unreg (h : List (Op F)) (a k a' k' : Str) :
    AliasTo (h ++ [.unreg k' a']) a k ↔ (a' ≠ a ∧ AliasTo h a k) := by
  constructor
  · rintro ⟨hne, pre, post, f, heq, hpost⟩
    rcases List.eq_nil_or_concat post with rfl | ⟨post', x, rfl⟩
    · have := List.append_inj' heq (by simp)
      simp at this
    · rw [List.concat_eq_append, ← List.cons_append, ← List.append_assoc] at heq
      have h2 := List.append_inj' heq (by simp)
      have hx : x = .unreg k' a' := by simpa using h2.2.symm
      have := hpost x (by simp)
      rw [hx] at this
      refine ⟨fun e => this ⟨e, hne⟩, hne, pre, post', f, h2.1, fun o ho => hpost o (by simp [ho])⟩
  · rintro ⟨hna, hne, pre, post, f, rfl, hpost⟩
    refine ⟨hne, pre, post ++ [.unreg k' a'], f, by simp, ?_⟩
    intro o ho
    rcases List.mem_append.mp ho with ho | ho
    · exact hpost o ho
    · have : o = .unreg k' a' := by simpa using ho
      subst this; exact fun e => hna e.1

theorem snoc_induction {α : Type} {P : List α → Prop} (nil : P []) (snoc : ∀ l a, P l → P (l ++ [a])) :
    ∀ l, P l := by
  intro l
  have : ∀ r : List α, P r.reverse := by
    intro r
    induction r with
    | nil => simpa
    | cons a r ih => simpa using snoc _ a ih
  simpa using this l.reverse

theorem funcs_run (h : List (Op F)) (k : Str) (f : Funcs F) :
    (run h).funcs.find? k = some f ↔ Live h k f := by
  induction h using snoc_induction with
  | nil => simp [run, Reg.init, Live]
  | snoc h o ih =>
    rw [run_append]
    cases o with
    | reg k' a f' =>
      rw [live_snoc_reg, ← ih]
      simp only [step, reg, AMap.find?_insert]
      by_cases hk : k = k'
      · subst hk; simp
      · have hk' : ¬ k' = k := fun e => hk e.symm
        simp [hk, hk']
    | unreg k' a =>
      rw [live_snoc_unreg, ← ih]
      simp only [step, unreg, AMap.find?_erase]
      by_cases hk : k = k'
      · subst hk; simp
      · have hk' : ¬ k' = k := fun e => hk e.symm
        simp [hk, hk']

theorem aliases_run (h : List (Op F)) (a k : Str) :
    (run h).aliases.find? a = some k ↔ AliasTo h a k := by
  induction h using snoc_induction with
  | nil => simp [run, Reg.init, AliasTo]
  | snoc h o ih =>
    rw [run_append]
    cases o with
    | reg k' a' f' =>
      rw [alias_snoc_reg, ← ih]
      simp only [step, reg]
      cases ha' : a' with
      | nil =>
        by_cases ha : a = []
        · subst ha
          have : ¬ AliasTo h [] k := fun e => e.1 rfl
          simp [ih, this]
        · have : ¬ [] = a := fun e => ha e.symm
          simp [this]
      | cons c cs =>
        rw [← ha']
        have : a'.isEmpty = false := by simp [ha']
        simp only [this, Bool.false_eq_true, if_false, AMap.find?_insert]
        by_cases hk : a = a'
        · subst hk; simp [ha']
        · have hk' : ¬ a' = a := fun e => hk e.symm
          simp [hk, hk']
    | unreg k' a' =>
      rw [alias_snoc_unreg, ← ih]
      simp only [step, unreg]
      cases ha' : a' with
      | nil =>
        by_cases ha : a = []
        · subst ha
          have : ¬ AliasTo h [] k := fun e => e.1 rfl
          simp [ih, this]
        · have : ¬ [] = a := fun e => ha e.symm
          simp [this]
      | cons c cs =>
        rw [← ha']
        have : a'.isEmpty = false := by simp [ha']
        simp only [this, Bool.false_eq_true, if_false, AMap.find?_erase]
        by_cases hk : a = a'
        · subst hk; simp
        · have hk' : ¬ a' = a := fun e => hk e.symm
          simp [hk, hk']

/-- C01. After any history of reg/unreg calls, creating by `name` yields instance `i` exactly when the name resolves
    (last-writer-wins, one alias step) to a key whose last call registered functions `f`, and `i` is made by and will be
    released with exactly these functions and records that key. -/
theorem C01_create_last_writer_wins (h : List (Op F)) (name : Str) (i : Inst F) :
    createComp (run h) name = some i ↔
      ∃ k f, Resolves h name k ∧ Live h k f ∧ i = { key := k, madeBy := f.create, release := f.release } := by
  unfold createComp
  simp only
  cases ha : (run h).aliases.find? name with
  | some k =>
    have hal := (aliases_run h name k).mp ha
    have huniq : ∀ k', Resolves h name k' ↔ k' = k := by
      intro k'
      constructor
      · rintro (h1 | ⟨h1, _⟩)
        · have := (aliases_run h name k').mpr h1; rw [ha] at this; cases this; rfl
        · exact absurd ⟨k, hal⟩ h1
      · rintro rfl; exact Or.inl hal
    simp only [huniq]
    cases hf : (run h).funcs.find? k with
    | none =>
      simp only [reduceCtorEq, false_iff]
      rintro ⟨k', f, rfl, hl, _⟩
      rw [← funcs_run, hf] at hl; cases hl
    | some f =>
      have hl := (funcs_run h k f).mp hf
      constructor
      · intro e; cases e; exact ⟨k, f, rfl, hl, rfl⟩
      · rintro ⟨k', f', rfl, hl', rfl⟩
        rw [← funcs_run, hf] at hl'; cases hl'; rfl
  | none =>
    have hno : ¬ ∃ k', AliasTo h name k' := by
      rintro ⟨k', hk'⟩; rw [← aliases_run, ha] at hk'; cases hk'
    have huniq : ∀ k', Resolves h name k' ↔ k' = name := by
      intro k'
      constructor
      · rintro (h1 | ⟨_, h1⟩)
        · exact absurd ⟨k', h1⟩ hno
        · exact h1
      · rintro rfl; exact Or.inr ⟨hno, rfl⟩
    simp only [huniq]
    cases hf : (run h).funcs.find? name with
    | none =>
      simp only [reduceCtorEq, false_iff]
      rintro ⟨k', f, rfl, hl, _⟩
      rw [← funcs_run, hf] at hl; cases hl
    | some f =>
      have hl := (funcs_run h name f).mp hf
      constructor
      · intro e; cases e; exact ⟨name, f, rfl, hl, rfl⟩
      · rintro ⟨k', f', rfl, hl', rfl⟩
        rw [← funcs_run, hf] at hl'; cases hl'; rfl

/-- C01. Creation by an unknown name reports failure (null) and never another implementation. -/
theorem C01_create_fails_iff (h : List (Op F)) (name : Str) :
    createComp (run h) name = none ↔ ∀ k f, Resolves h name k → ¬ Live h k f := by
  constructor
  · intro e k f hr hl
    have := (C01_create_last_writer_wins h name ⟨k, f.create, f.release⟩).mpr ⟨k, f, hr, hl, rfl⟩
    rw [e] at this; cases this
  · intro hall
    cases hc : createComp (run h) name with
    | none => rfl
    | some i =>
      obtain ⟨k, f, hr, hl, _⟩ := (C01_create_last_writer_wins h name i).mp hc
      exact absurd hl (hall k f hr)

/-- Non-vacuity: an override through an alias after an unreg of another key. -/
example : createComp (run [.reg "k1".toList "a".toList ⟨1, 2⟩, .reg "k2".toList "a".toList ⟨3, 4⟩,
    .unreg "k1".toList [], .reg "k2".toList [] ⟨5, 6⟩]) "a".toList = some ⟨"k2".toList, 5, 6⟩ := by decide

/-- C71. Unregistering an implementation leaves every other implementation reachable under its key, whatever the history:
    the meaning of other keys does not change. -/
theorem C71_unreg_keeps_other_keys (h : List (Op F)) (k a k' : Str) (f : Funcs F) (hk : k' ≠ k) :
    Live (h ++ [.unreg k a]) k' f ↔ Live h k' f := by
  rw [live_snoc_unreg]; exact ⟨fun h => h.2, fun h1 => ⟨fun e => hk e.symm, h1⟩⟩

/-- C71 (partial). Names that are neither the unregistered key nor its alias resolve as before.
    Missing for the full property: names that another registration shares with the unregistered one, see the negations below. -/
theorem C71_unreg_keeps_other_names_partial (h : List (Op F)) (k a name : Str)
    (ha : a ≠ name) (hk : ∀ k', Resolves h name k' → k' ≠ k) :
    createComp (run (h ++ [.unreg k a])) name = createComp (run h) name := by
  have hal : ∀ k', AliasTo (h ++ [.unreg k a]) name k' ↔ AliasTo h name k' := by
    intro k'; rw [alias_snoc_unreg]; exact ⟨fun h => h.2, fun h1 => ⟨ha, h1⟩⟩
  have hres : ∀ k', Resolves (h ++ [.unreg k a]) name k' ↔ Resolves h name k' := by
    intro k'; unfold Resolves; simp only [hal]
  have hsome : ∀ i, createComp (run (h ++ [.unreg k a])) name = some i ↔ createComp (run h) name = some i := by
    intro i
    rw [C01_create_last_writer_wins, C01_create_last_writer_wins]
    constructor
    · rintro ⟨k', f, hr, hl, e⟩
      exact ⟨k', f, (hres k').mp hr, ((live_snoc_unreg _ _ _ _ _).mp hl).2, e⟩
    · rintro ⟨k', f, hr, hl, e⟩
      exact ⟨k', f, (hres k').mpr hr, (live_snoc_unreg _ _ _ _ _).mpr ⟨fun e => hk k' hr e.symm, hl⟩, e⟩
  cases h1 : createComp (run h) name with
  | some i => exact (hsome i).mpr h1
  | none =>
    cases h2 : createComp (run (h ++ [.unreg k a])) name with
    | none => rfl
    | some i => rw [(hsome i).mp h2] at h1; cases h1

example : createComp (run ([.reg "k1".toList "a".toList ⟨1, 2⟩, .reg "k2".toList "b".toList ⟨3, 4⟩] ++
    [.unreg "k1".toList "a".toList])) "b".toList = some ⟨"k2".toList, 3, 4⟩ := by decide

/-- C71, negation (as the code is): two implementations registered under the same key (e.g. built-in and overriding plugin);
    unregistering the first one, still alive as a RegEntry, removes the second, live one. -/
theorem C71_negation_override_lost :
    ∃ (h : List (Op Nat)) (k : Str), createComp (run h) k = some ⟨k, 3, 4⟩ ∧
      -- the entry of the *first* registration is destroyed
      createComp (run (h ++ [.unreg k []])) k = none :=
  ⟨[.reg "k".toList [] ⟨1, 2⟩, .reg "k".toList [] ⟨3, 4⟩], "k".toList, by decide⟩

/-- C71, negation: an alias taken over by another key disappears when the former owner is unregistered. -/
theorem C71_negation_alias_lost :
    ∃ (h : List (Op Nat)) (k1 k2 a : Str), k1 ≠ k2 ∧ createComp (run h) a = some ⟨k2, 3, 4⟩ ∧
      createComp (run (h ++ [.unreg k1 a])) a = none :=
  ⟨[.reg "k1".toList "a".toList ⟨1, 2⟩, .reg "k2".toList "a".toList ⟨3, 4⟩], "k1".toList, "k2".toList, "a".toList, by decide⟩

end LM.Registry
