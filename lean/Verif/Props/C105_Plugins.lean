import Verif.Spec.Plugins
import Verif.Props.C01_Registry
import Verif.Props.C02_Plugin
import Mathlib.Tactic.Tauto
/-
  C105: plugins bring and take away their implementations.
-/
namespace LM.Plugins
open LM.Registry (Funcs Reg Inst)
open Spec

/-! ### Registering and unregistering a library -/

theorem leave_funcs (r : Reg Code) (es : List Entry) (k : Str) :
    (leave r es).funcs.find? k = if k ∈ es.map Entry.key then none else r.funcs.find? k := by
  induction es with
  | nil => simp [leave]
  | cons e es ih =>
    simp only [leave, Registry.unreg, AMap.find?_erase, ih, List.map_cons, List.mem_cons]
    by_cases h : k = e.key <;> simp [h]

theorem leave_aliases (r : Reg Code) (es : List Entry) (a : Str) :
    (leave r es).aliases.find? a = if a ≠ [] ∧ a ∈ es.map Entry.alias then none else r.aliases.find? a := by
  induction es with
  | nil => simp [leave]
  | cons e es ih =>
    by_cases he : e.alias = []
    · have : (leave r (e :: es)).aliases = (leave r es).aliases := by simp [leave, Registry.unreg, he]
      rw [this, ih]
      by_cases ha : a = []
      · simp [ha]
      · have : a ≠ e.alias := by rw [he]; exact ha
        simp [ha, this]
    · have : (leave r (e :: es)).aliases = (leave r es).aliases.erase e.alias := by
        simp [leave, Registry.unreg, he]
      rw [this, AMap.find?_erase, ih]
      by_cases h : a = e.alias
      · simp [h, he]
      · simp [h]

theorem enter_funcs_of (es : List Entry) (r : Reg Code) (l : Option Nat) (k : Str) (f : Funcs Code)
    (h : (enter r l es).funcs.find? k = some f) :
    (∃ e ∈ es, e.key = k ∧ f = funcsOf l e) ∨ (k ∉ es.map Entry.key ∧ r.funcs.find? k = some f) := by
  induction es generalizing r with
  | nil => right; simpa [enter] using h
  | cons e es ih =>
    rcases ih _ h with ⟨e', he', hk⟩ | ⟨hn, hf⟩
    · exact Or.inl ⟨e', List.mem_cons_of_mem _ he', hk⟩
    · simp only [Registry.reg, AMap.find?_insert] at hf
      by_cases hk : k = e.key
      · left
        rw [if_pos hk] at hf
        exact ⟨e, List.mem_cons_self .., hk.symm, (Option.some.inj hf).symm⟩
      · right
        rw [if_neg hk] at hf
        exact ⟨by simp [hk]; simpa using hn, hf⟩

theorem enter_funcs_keep (es : List Entry) (r : Reg Code) (l : Option Nat) (k : Str) (hk : k ∉ es.map Entry.key) :
    (enter r l es).funcs.find? k = r.funcs.find? k := by
  induction es generalizing r with
  | nil => rfl
  | cons e es ih =>
    simp only [List.map_cons, List.mem_cons, not_or] at hk
    rw [enter, ih _ hk.2]
    simp [Registry.reg, AMap.find?_insert, hk.1]

theorem mem_names_key (e : Entry) : e.key ∈ names e := by
  unfold names; split <;> simp
theorem mem_names_alias (e : Entry) (h : e.alias ≠ []) : e.alias ∈ names e := by
  unfold names; simp [h]
theorem mem_names {e : Entry} {n : Str} : n ∈ names e ↔ n = e.key ∨ (n = e.alias ∧ n ≠ []) := by
  unfold names
  split
  · rename_i h; rw [h]; simp
  · rename_i h
    simp only [List.mem_cons, List.not_mem_nil, or_false]
    constructor
    · rintro (rfl | rfl)
      · exact Or.inl rfl
      · exact Or.inr ⟨rfl, h⟩
    · rintro (h | ⟨h, _⟩) <;> tauto

theorem enter_funcs_new (es : List Entry) (r : Reg Code) (l : Option Nat)
    (hd : es.Pairwise (fun e e' => ∀ n ∈ names e, n ∉ names e')) (e : Entry) (he : e ∈ es) :
    (enter r l es).funcs.find? e.key = some (funcsOf l e) := by
  induction es generalizing r with
  | nil => simp at he
  | cons e0 es ih =>
    rw [List.pairwise_cons] at hd
    rcases List.mem_cons.mp he with rfl | he
    · rw [enter, enter_funcs_keep]
      · simp [Registry.reg, AMap.find?_insert]
      · intro hm
        obtain ⟨e', he', hk⟩ := List.mem_map.mp hm
        exact hd.1 e' he' _ (mem_names_key e) (hk ▸ mem_names_key e')
    · exact ih _ hd.2 he

theorem enter_aliases_keep (es : List Entry) (r : Reg Code) (l : Option Nat) (a : Str)
    (ha : a = [] ∨ a ∉ es.map Entry.alias) : (enter r l es).aliases.find? a = r.aliases.find? a := by
  induction es generalizing r with
  | nil => rfl
  | cons e es ih =>
    have ha' : a = [] ∨ a ∉ es.map Entry.alias := by
      rcases ha with h | h
      · exact Or.inl h
      · simp only [List.map_cons, List.mem_cons, not_or] at h; exact Or.inr h.2
    rw [enter, ih _ ha']
    by_cases he : e.alias = []
    · simp [Registry.reg, he]
    · have : a ≠ e.alias := by
        rcases ha with h | h
        · rw [h]; exact fun h => he h.symm
        · simp only [List.map_cons, List.mem_cons, not_or] at h; exact h.1
      simp [Registry.reg, he, AMap.find?_insert, this]

theorem enter_aliases_new (es : List Entry) (r : Reg Code) (l : Option Nat)
    (hd : es.Pairwise (fun e e' => ∀ n ∈ names e, n ∉ names e')) (e : Entry) (he : e ∈ es) (ha : e.alias ≠ []) :
    (enter r l es).aliases.find? e.alias = some e.key := by
  induction es generalizing r with
  | nil => simp at he
  | cons e0 es ih =>
    rw [List.pairwise_cons] at hd
    rcases List.mem_cons.mp he with rfl | he
    · rw [enter, enter_aliases_keep]
      · simp [Registry.reg, ha, AMap.find?_insert]
      · right
        intro hm
        obtain ⟨e', he', hk⟩ := List.mem_map.mp hm
        exact hd.1 e' he' _ (mem_names_alias e ha) (hk ▸ mem_names_alias e' (hk ▸ ha))
    · exact ih _ hd.2 he

/-! ### States the program can get to -/

theorem run_snoc (w : World) (s : St) (os : List Op) (o : Op) :
    run w s (os ++ [o]) = (run w s os).bind (fun s => (step w s o).map Prod.fst) := by
  induction os generalizing s with
  | nil =>
    simp only [List.nil_append, run, Option.bind_some]
    cases step w s o <;> rfl
  | cons o' os ih =>
    simp only [List.cons_append, run]
    cases step w s o' with
    | none => rfl
    | some x => exact ih x.1

/-- What holds at the start and is kept by the two things the system does to libraries (dlopen, dlclose) holds always,
    if it is about the registry and the libraries in memory only. -/
theorem reachable_induction {w : World} {P : Reg Code → (Nat → Nat) → List Nat → Prop}
    (h0 : P (enter Reg.init none (w none)) (fun _ => 0) [])
    (ho : ∀ s h, P s.reg s.count s.mapped → P (opened w s h).reg (opened w s h).count (opened w s h).mapped)
    (hc : ∀ s h c, P s.reg s.count s.mapped → P (closed w s h c).reg (closed w s h c).count (closed w s h c).mapped)
    {s : St} (hs : Reachable w s) : P s.reg s.count s.mapped := by
  obtain ⟨ops, hr⟩ := hs
  suffices ∀ ops s0 s, P s0.reg s0.count s0.mapped → run w s0 ops = some s → P s.reg s.count s.mapped from
    this ops (init w) s h0 hr
  clear hr s h0
  intro ops
  induction ops with
  | nil => intro s0 s h hr; simp only [run, Option.some.injEq] at hr; exact hr ▸ h
  | cons o ops ih =>
    intro s0 s h hr
    simp only [run] at hr
    rcases hst : step w s0 o with _ | ⟨s1, out⟩
    · rw [hst] at hr; cases hr
    · rw [hst] at hr
      refine ih s1 s ?_ hr
      cases o with
      | load p d =>
        simp only [step, Option.some.injEq] at hst
        unfold load at hst
        split at hst
        · cases hst; exact h
        · split at hst
          · cases hst; exact h
          · cases hst; exact ho _ _ h
      | unload p c =>
        simp only [step, Option.some.injEq] at hst
        unfold unload at hst
        split at hst
        · cases hst; exact h
        · split at hst
          · cases hst; exact h
          · cases hst; exact hc _ _ _ h
      | unloadAll c =>
        simp only [step, Option.some.injEq] at hst
        cases hst
        show P (closeAll w s0 c s0.plugins).reg (closeAll w s0 c s0.plugins).count (closeAll w s0 c s0.plugins).mapped
        clear hr
        generalize s0.plugins = ps
        induction ps generalizing s0 with
        | nil => exact h
        | cons e ps ih => exact ih _ (hc s0 e.2 (c e.1) h)
      | create name =>
        simp only [step] at hst
        split at hst
        · cases hst; exact h
        · split at hst
          · cases hst; exact h
          · cases hst
      | destroy n =>
        simp only [step] at hst
        split at hst
        · cases hst
        · split at hst
          · cases hst; exact h
          · cases hst

theorem closed_cases (w : World) (s : St) (h : Nat) (c : Close) :
    ((closed w s h c).reg = s.reg ∧ (closed w s h c).mapped = s.mapped) ∨
    ((closed w s h c).reg = leave s.reg (w (some h)) ∧
      (closed w s h c).mapped = s.mapped.filter (fun g => !decide (g = h)) ∧ c = .gone ∧ s.count h = 1) := by
  cases c with
  | refused => left; exact ⟨rfl, rfl⟩
  | kept => left; exact ⟨rfl, rfl⟩
  | gone =>
    by_cases hc : s.count h = 1
    · right; simp [closed, hc]
    · left; simp [closed, hc]

/-- Every registered function is code in memory. -/
theorem reg_sound {w : World} {s : St} (hs : Reachable w s) (k : Str) (f : Funcs Code)
    (hf : s.reg.funcs.find? k = some f) : ∃ l, Present s l ∧ ∃ e ∈ w l, e.key = k ∧ f = funcsOf l e := by
  have := reachable_induction (w := w)
    (P := fun r _ m => ∀ k f, r.funcs.find? k = some f →
      ∃ l, (∀ h, l = some h → h ∈ m) ∧ ∃ e ∈ w l, e.key = k ∧ f = funcsOf l e) ?_ ?_ ?_ hs k f hf
  · obtain ⟨l, hl, h⟩ := this
    refine ⟨l, ?_, h⟩
    cases l with
    | none => trivial
    | some g => exact hl g rfl
  · intro k f h
    rcases enter_funcs_of _ _ _ _ _ h with h | ⟨_, h⟩
    · exact ⟨none, by simp, h⟩
    · simp [Reg.init] at h
  · intro s h ih k f hf
    by_cases hm : h ∈ s.mapped
    · simp only [opened, hm, if_true] at hf ⊢
      exact ih k f hf
    · simp only [opened, hm, if_false] at hf ⊢
      rcases enter_funcs_of _ _ _ _ _ hf with hf | ⟨_, hf⟩
      · exact ⟨some h, by simp, hf⟩
      · obtain ⟨l, hl, h'⟩ := ih k f hf
        exact ⟨l, fun g hg => List.mem_cons_of_mem _ (hl g hg), h'⟩
  · intro s h c ih k f hf
    rcases closed_cases w s h c with ⟨hr, hm⟩ | ⟨hr, hm, _⟩
    · rw [hr] at hf; rw [hm]; exact ih k f hf
    · rw [hr, leave_funcs] at hf
      split at hf
      · cases hf
      · rename_i hk
        obtain ⟨l, hl, e, he, hek, hfe⟩ := ih k f hf
        refine ⟨l, ?_, e, he, hek, hfe⟩
        intro g hg
        rw [hm, List.mem_filter]
        refine ⟨hl g hg, ?_⟩
        have : g ≠ h := by
          rintro rfl
          subst hg
          exact hk (hek ▸ List.mem_map_of_mem he)
        simp [this]

/-- A library that is open is in memory. -/
theorem count_mapped {w : World} {s : St} (hs : Reachable w s) (h : Nat) (hc : s.count h ≠ 0) : h ∈ s.mapped := by
  refine reachable_induction (w := w) (P := fun _ c m => ∀ h, c h ≠ 0 → h ∈ m) ?_ ?_ ?_ hs h hc
  · intro h hh; exact absurd rfl hh
  · intro s g ih h hh
    by_cases e : h = g
    · subst e
      by_cases hm : h ∈ s.mapped <;> simp [opened, hm]
    · have hh' : s.count h ≠ 0 := by simpa [opened, e] using hh
      have := ih h hh'
      by_cases hm : g ∈ s.mapped <;> simp [opened, hm, this]
  · intro s g c ih h hh
    cases c with
    | refused => exact ih h hh
    | kept =>
      apply ih
      intro h0
      apply hh
      simp only [closed]
      split <;> omega
    | gone =>
      by_cases hc : s.count g = 1
      · simp only [closed, hc, if_true] at hh ⊢
        by_cases e : h = g
        · subst e; simp [hc] at hh
        · simp only [if_neg e] at hh
          rw [List.mem_filter]
          exact ⟨ih h hh, by simp [e]⟩
      · simp only [closed, hc, if_false] at hh ⊢
        apply ih
        intro h0
        apply hh
        split <;> omega

theorem inMemory_iff (s : St) (l : Option Nat) : inMemory s l = true ↔ Present s l := by
  cases l <;> simp [inMemory, Present]

/-- How often a library is loaded is at most how often it is open. -/
theorem held_le {w : World} {s : St} (hs : Reachable w s) :
    s.plugins.keys.Nodup ∧ ∀ h, Plugin.Spec.held h s.plugins ≤ s.count h := by
  obtain ⟨ops, hr⟩ := hs
  suffices ∀ ops s0 s, (s0.plugins.keys.Nodup ∧ ∀ h, Plugin.Spec.held h s0.plugins ≤ s0.count h) →
      run w s0 ops = some s → s.plugins.keys.Nodup ∧ ∀ h, Plugin.Spec.held h s.plugins ≤ s.count h from
    this ops (init w) s ⟨by simp [init, AMap.keys], by simp [init, Plugin.Spec.held]⟩ hr
  clear hr s
  intro ops
  induction ops with
  | nil => intro s0 s h hr; simp only [run, Option.some.injEq] at hr; exact hr ▸ h
  | cons o ops ih =>
    intro s0 s h hr
    simp only [run] at hr
    rcases hst : step w s0 o with _ | ⟨s1, out⟩
    · rw [hst] at hr; cases hr
    · rw [hst] at hr
      refine ih s1 s ?_ hr
      cases o with
      | load p d =>
        simp only [step, Option.some.injEq] at hst
        unfold load at hst
        split at hst
        · cases hst; exact h
        · rename_i hp
          split at hst
          · cases hst; exact h
          · rename_i x
            cases hst
            refine ⟨AMap.keys_insert_nodup _ _ h.1, ?_⟩
            intro g
            have h2 := h.2 g
            simp only [opened, AMap.insert, Plugin.erase_of_find_none _ _ hp]
            simp only [Plugin.Spec.held] at h2 ⊢
            rw [List.filter_cons]
            by_cases e : g = x
            · subst e; simp; simpa using h2
            · have : x ≠ g := fun h => e h.symm
              simpa [e, this] using h2
      | unload p c =>
        simp only [step, Option.some.injEq] at hst
        unfold unload at hst
        split at hst
        · cases hst; exact h
        · rename_i x hp
          split at hst
          · cases hst; exact h
          · rename_i hcl
            cases hst
            refine ⟨AMap.keys_erase_nodup _ h.1, ?_⟩
            intro g
            have h2 := h.2 g
            have h3 := Plugin.held_filter_erase s0.plugins h.1 p g x hp
            have hcnt : (closed w s0 x c).count g = if g = x then s0.count g - 1 else s0.count g := by
              cases c with
              | refused => exact absurd rfl hcl
              | kept => rfl
              | gone => by_cases hc : s0.count x = 1 <;> simp [closed, hc]
            show Plugin.Spec.held g (s0.plugins.erase p) ≤ (closed w s0 x c).count g
            rw [hcnt]
            by_cases e : g = x
            · subst e
              simp only [if_true] at h3 ⊢
              omega
            · have : x ≠ g := fun h => e h.symm
              simp only [if_neg e, if_neg this] at h3 ⊢
              omega
      | unloadAll c =>
        simp only [step, Option.some.injEq] at hst
        cases hst
        exact ⟨by simp [AMap.keys], by simp [Plugin.Spec.held]⟩
      | create name =>
        simp only [step] at hst
        split at hst
        · cases hst; exact h
        · split at hst
          · cases hst; exact h
          · cases hst
      | destroy n =>
        simp only [step] at hst
        split at hst
        · cases hst
        · split at hst
          · cases hst; exact h
          · cases hst

theorem instOf_create {r : Reg Code} {name : Str} {i : Inst Code} (h : Registry.createComp r name = some i) :
    ∃ k f, r.funcs.find? k = some f ∧ i = ⟨k, f.create, f.release⟩ ∧
      ((r.aliases.find? name = none ∧ k = name) ∨ r.aliases.find? name = some k) := by
  unfold Registry.createComp at h
  cases ha : r.aliases.find? name with
  | none =>
    simp only [ha] at h
    split at h
    · cases h
    · rename_i f hf
      exact ⟨name, f, hf, (Option.some.inj h).symm, Or.inl ⟨rfl, rfl⟩⟩
  | some k =>
    simp only [ha] at h
    split at h
    · cases h
    · rename_i f hf
      exact ⟨k, f, hf, (Option.some.inj h).symm, Or.inr rfl⟩

theorem create_sound {w : World} {s : St} (hs : Reachable w s) {name : Str} {i : Inst Code}
    (h : Registry.createComp s.reg name = some i) : ∃ l e, Present s l ∧ e ∈ w l ∧ i = instOf l e := by
  obtain ⟨k, f, hf, hi, _⟩ := instOf_create h
  obtain ⟨l, hl, e, he, hk, hfe⟩ := reg_sound hs k f hf
  exact ⟨l, e, hl, he, by rw [hi, hfe, ← hk]; rfl⟩

/-- C105. Whatever was loaded and unloaded before, and even if implementations override each other: creating a component
    never calls code that is not in memory. It yields nothing, or a component of an implementation of the program or of a
    library in memory. -/
theorem C105_create {w : World} {s : St} (hs : Reachable w s) (name : Str) :
    ∃ s' o, step w s (.create name) = some (s', .made o) ∧
      ∀ i, o = some i → ∃ l e, Present s l ∧ e ∈ w l ∧ i = instOf l e := by
  rcases h : Registry.createComp s.reg name with _ | i
  · exact ⟨s, none, by simp [step, h], by simp⟩
  · obtain ⟨l, e, hl, he, hi⟩ := create_sound hs h
    have hm : inMemory s i.madeBy.lib = true := by rw [inMemory_iff, hi]; exact hl
    refine ⟨{ s with objs := s.objs ++ [i] }, some i, by simp [step, h, hm], ?_⟩
    rintro j hj
    cases hj
    exact ⟨l, e, hl, he, hi⟩

theorem held_pos {m : AMap Str Nat} {p : Str} {h : Nat} (hp : m.find? p = some h) : Plugin.Spec.held h m ≠ 0 := by
  have := AMap.mem_of_find? hp
  unfold Plugin.Spec.held
  intro h0
  have h1 := List.length_eq_zero_iff.mp h0
  have h2 : (p, h) ∈ m.filter (fun e => e.2 = h) := List.mem_filter.mpr ⟨this, by simp⟩
  rw [h1] at h2
  cases h2

/-- C105. A plugin that is loaded is in memory, even if it is loaded under several paths and was unloaded under others. -/
theorem C105_loaded {w : World} {s : St} (hs : Reachable w s) (p : Str) (h : Nat)
    (hp : s.plugins.find? p = some h) : Present s (some h) := by
  have h1 := (held_le hs).2 h
  have h2 := held_pos hp
  exact count_mapped hs h (by omega)

/-! ### Different names -/

theorem share_eq {w : World} (hd : Distinct w) {l l' : Option Nat} {e e' : Entry} {n : Str} (he : e ∈ w l)
    (he' : e' ∈ w l') (hn : n ∈ names e) (hn' : n ∈ names e') : l = l' ∧ e = e' := by
  by_cases hl : l = l'
  · subst hl
    refine ⟨rfl, ?_⟩
    have := hd.within l
    revert he he' this
    generalize w l = es
    intro he he' hp
    induction es with
    | nil => cases he
    | cons a es ih =>
      rw [List.pairwise_cons] at hp
      rcases List.mem_cons.mp he with h1 | h1 <;> rcases List.mem_cons.mp he' with h2 | h2
      · rw [h1, h2]
      · subst h1; exact absurd hn' (hp.1 e' h2 n hn)
      · subst h2; exact absurd hn (hp.1 e h1 n hn')
      · exact ih h1 h2 hp.2
  · exact absurd hn' (hd.across l l' hl e he e' he' n hn)

theorem reg_complete {w : World} (hd : Distinct w) {s : St} (hs : Reachable w s) (l : Option Nat) (hl : Present s l)
    (e : Entry) (he : e ∈ w l) : s.reg.funcs.find? e.key = some (funcsOf l e) ∧
      (e.alias ≠ [] → s.reg.aliases.find? e.alias = some e.key) := by
  have := reachable_induction (w := w)
    (P := fun r _ m => ∀ l, (∀ h, l = some h → h ∈ m) → ∀ e ∈ w l, r.funcs.find? e.key = some (funcsOf l e) ∧
      (e.alias ≠ [] → r.aliases.find? e.alias = some e.key)) ?_ ?_ ?_ hs l ?_ e he
  · exact this
  · intro l hl e he
    cases l with
    | some h => exact absurd (hl h rfl) (by simp)
    | none => exact ⟨enter_funcs_new _ _ _ (hd.within _) e he, enter_aliases_new _ _ _ (hd.within _) e he⟩
  · intro s h ih l hl e he
    by_cases hm : h ∈ s.mapped
    · simp only [opened, hm, if_true] at hl ⊢
      exact ih l hl e he
    · simp only [opened, hm, if_false] at hl ⊢
      by_cases hlh : l = some h
      · subst hlh
        exact ⟨enter_funcs_new _ _ _ (hd.within _) e he, enter_aliases_new _ _ _ (hd.within _) e he⟩
      · have ih' := ih l (by
          intro g hg
          rcases List.mem_cons.mp (hl g hg) with h1 | h1
          · exact absurd (hg.trans (congrArg some h1)) hlh
          · exact h1) e he
        rw [enter_funcs_keep]
        · refine ⟨ih'.1, ?_⟩
          intro ha
          rw [enter_aliases_keep]
          · exact ih'.2 ha
          · right
            intro hm
            obtain ⟨e', he', hk⟩ := List.mem_map.mp hm
            exact hlh (share_eq hd he he' (mem_names_alias e ha) (hk ▸ mem_names_alias e' (hk ▸ ha))).1
        · intro hm
          obtain ⟨e', he', hk⟩ := List.mem_map.mp hm
          exact hlh (share_eq hd he he' (mem_names_key e) (hk ▸ mem_names_key e')).1
  · intro s h c ih l hl e he
    rcases closed_cases w s h c with ⟨hr, hm⟩ | ⟨hr, hm, _⟩
    · rw [hm] at hl; rw [hr]; exact ih l hl e he
    · rw [hm] at hl
      have hlh : l ≠ some h := by
        intro hlh
        have := hl h hlh
        simp at this
      have ih' := ih l (fun g hg => (List.mem_filter.mp (hl g hg)).1) e he
      rw [hr, leave_funcs, if_neg, leave_aliases]
      · refine ⟨ih'.1, ?_⟩
        intro ha
        rw [if_neg]
        · exact ih'.2 ha
        · rintro ⟨_, hm⟩
          obtain ⟨e', he', hk⟩ := List.mem_map.mp hm
          exact hlh (share_eq hd he he' (mem_names_alias e ha) (hk ▸ mem_names_alias e' (hk ▸ ha))).1
      · intro hm
        obtain ⟨e', he', hk⟩ := List.mem_map.mp hm
        exact hlh (share_eq hd he he' (mem_names_key e) (hk ▸ mem_names_key e')).1
  · intro h hlh
    subst hlh
    exact hl

theorem enter_aliases_of (es : List Entry) (r : Reg Code) (l : Option Nat) (a k : Str)
    (h : (enter r l es).aliases.find? a = some k) :
    (∃ e ∈ es, e.alias = a ∧ a ≠ [] ∧ e.key = k) ∨ r.aliases.find? a = some k := by
  induction es generalizing r with
  | nil => right; exact h
  | cons e es ih =>
    rcases ih _ h with ⟨e', he', hk⟩ | hf
    · exact Or.inl ⟨e', List.mem_cons_of_mem _ he', hk⟩
    · by_cases hea : e.alias = []
      · right; simpa [Registry.reg, hea] using hf
      · have hf' : (r.aliases.insert e.alias e.key).find? a = some k := by simpa [Registry.reg, hea] using hf
        rw [AMap.find?_insert] at hf'
        by_cases ha : a = e.alias
        · left
          rw [if_pos ha] at hf'
          exact ⟨e, List.mem_cons_self .., ha.symm, ha ▸ hea, Option.some.inj hf'⟩
        · right
          rw [if_neg ha] at hf'
          exact hf'

theorem alias_sound {w : World} {s : St} (hs : Reachable w s) (a k : Str)
    (ha : s.reg.aliases.find? a = some k) : ∃ l, Present s l ∧ ∃ e ∈ w l, e.alias = a ∧ a ≠ [] ∧ e.key = k := by
  have := reachable_induction (w := w)
    (P := fun r _ m => ∀ a k, r.aliases.find? a = some k →
      ∃ l, (∀ h, l = some h → h ∈ m) ∧ ∃ e ∈ w l, e.alias = a ∧ a ≠ [] ∧ e.key = k) ?_ ?_ ?_ hs a k ha
  · obtain ⟨l, hl, h⟩ := this
    refine ⟨l, ?_, h⟩
    cases l with
    | none => trivial
    | some g => exact hl g rfl
  · intro a k h
    rcases enter_aliases_of _ _ _ _ _ h with h | h
    · exact ⟨none, by simp, h⟩
    · simp [Reg.init] at h
  · intro s h ih a k hf
    by_cases hm : h ∈ s.mapped
    · simp only [opened, hm, if_true] at hf ⊢
      exact ih a k hf
    · simp only [opened, hm, if_false] at hf ⊢
      rcases enter_aliases_of _ _ _ _ _ hf with hf | hf
      · exact ⟨some h, by simp, hf⟩
      · obtain ⟨l, hl, h'⟩ := ih a k hf
        exact ⟨l, fun g hg => List.mem_cons_of_mem _ (hl g hg), h'⟩
  · intro s h c ih a k hf
    rcases closed_cases w s h c with ⟨hr, hm⟩ | ⟨hr, hm, _⟩
    · rw [hr] at hf; rw [hm]; exact ih a k hf
    · rw [hr, leave_aliases] at hf
      split at hf
      · cases hf
      · rename_i hk
        obtain ⟨l, hl, e, he, hea, hne, hek⟩ := ih a k hf
        refine ⟨l, ?_, e, he, hea, hne, hek⟩
        intro g hg
        rw [hm, List.mem_filter]
        refine ⟨hl g hg, ?_⟩
        have : g ≠ h := by
          rintro rfl
          subst hg
          exact hk ⟨hne, hea ▸ List.mem_map_of_mem he⟩
        simp [this]

theorem createComp_iff {w : World} (hd : Distinct w) {s : St} (hs : Reachable w s) (name : Str) (i : Inst Code) :
    Registry.createComp s.reg name = some i ↔
      ∃ l e, Present s l ∧ e ∈ w l ∧ name ∈ names e ∧ i = instOf l e := by
  constructor
  · intro h
    obtain ⟨k, f, hf, hi, hk⟩ := instOf_create h
    obtain ⟨l, hl, e, he, hek, hfe⟩ := reg_sound hs k f hf
    refine ⟨l, e, hl, he, ?_, by rw [hi, hfe, ← hek]; rfl⟩
    rcases hk with ⟨_, hk⟩ | ha
    · rw [← hk, ← hek]; exact mem_names_key e
    · obtain ⟨l', hl', e', he', hea, hne, hek'⟩ := alias_sound hs name k ha
      obtain ⟨_, hee⟩ := share_eq hd he he' (mem_names_key e) (by rw [hek, ← hek']; exact mem_names_key e')
      rw [hee, ← hea]
      exact mem_names_alias e' (hea ▸ hne)
  · rintro ⟨l, e, hl, he, hn, hi⟩
    obtain ⟨hf, ha⟩ := reg_complete hd hs l hl e he
    unfold Registry.createComp
    rcases hal : s.reg.aliases.find? name with _ | k
    · have hk : name = e.key := by
        rcases mem_names.mp hn with h | ⟨h, hne⟩
        · exact h
        · rw [h, ha (h ▸ hne)] at hal; cases hal
      simp only [hk, hf, hi]
      rfl
    · obtain ⟨l', hl', e', he', hea, hne, hek⟩ := alias_sound hs name k hal
      obtain ⟨_, hee⟩ := share_eq hd he he' hn (by rw [← hea]; exact mem_names_alias e' (hea ▸ hne))
      have hk : k = e.key := by rw [hee, hek]
      simp only [hk, hf, hi]
      rfl

/-- C105 (partial: no name is used by two implementations). What can be created, under which name and by which code, is
    exactly what the program and the libraries in memory contain, whatever the history.
    Missing: implementations overriding each other (C105_negation_override). -/
theorem C105_available_partial {w : World} (hd : Distinct w) {s : St} (hs : Reachable w s) (name : Str) :
    (∀ i, (∃ s', step w s (.create name) = some (s', .made (some i))) ↔
      ∃ l e, Present s l ∧ e ∈ w l ∧ name ∈ names e ∧ i = instOf l e) ∧
    ((∃ s', step w s (.create name) = some (s', .made none)) ↔ ∀ l e, Present s l → e ∈ w l → name ∉ names e) := by
  constructor
  · intro i
    rw [← createComp_iff hd hs]
    constructor
    · rintro ⟨s', h⟩
      rcases hc : Registry.createComp s.reg name with _ | j
      · simp [step, hc] at h
      · simp only [step, hc] at h
        split at h
        · cases h; rfl
        · cases h
    · intro hc
      obtain ⟨l, e, hl, he, hi⟩ := create_sound hs hc
      have hm : inMemory s i.madeBy.lib = true := by rw [inMemory_iff, hi]; exact hl
      exact ⟨{ s with objs := s.objs ++ [i] }, by simp only [step, hc, hm, if_true]⟩
  · constructor
    · rintro ⟨s', h⟩ l e hl he hn
      have hc := (createComp_iff hd hs name (instOf l e)).mpr ⟨l, e, hl, he, hn, rfl⟩
      simp only [step, hc] at h
      split at h <;> simp at h
    · intro h
      rcases hc : Registry.createComp s.reg name with _ | j
      · exact ⟨s, by simp only [step, hc]⟩
      · obtain ⟨l, e, hl, he, hn, _⟩ := (createComp_iff hd hs name j).mp hc
        exact absurd hn (h l e hl he)

/-- C105 (partial, as C105_available_partial). Two histories that end with the same libraries in memory leave the same
    implementations: in particular unloading a plugin that was loaded, if the library goes, restores what was there.
    Missing: implementations overriding each other (C105_negation_override). -/
theorem C105_history_partial {w : World} (hd : Distinct w) {s t : St} (hs : Reachable w s) (ht : Reachable w t)
    (hst : ∀ h, h ∈ s.mapped ↔ h ∈ t.mapped) (name : Str) :
    (step w s (.create name)).map Prod.snd = (step w t (.create name)).map Prod.snd := by
  have hp : ∀ l, Present s l ↔ Present t l := by
    intro l
    cases l with
    | none => exact Iff.rfl
    | some h => exact hst h
  obtain ⟨s', o, h1, _⟩ := C105_create hs name
  obtain ⟨t', o', h2, _⟩ := C105_create ht name
  rw [h1, h2]
  have key : ∀ i, o = some i ↔ o' = some i := by
    intro i
    have e1 := (C105_available_partial hd hs name).1 i
    have e2 := (C105_available_partial hd ht name).1 i
    simp only [hp] at e1
    rw [← e2] at e1
    constructor
    · rintro rfl
      obtain ⟨t'', h⟩ := e1.mp ⟨s', h1⟩
      rw [h2] at h
      cases h; rfl
    · rintro rfl
      obtain ⟨t'', h⟩ := e1.mpr ⟨t', h2⟩
      rw [h1] at h
      cases h; rfl
  have : o = o' := by
    cases o with
    | none =>
      cases o' with
      | none => rfl
      | some i => exact ((key i).mpr rfl)
    | some i => exact ((key i).mp rfl).symm
  rw [this]; rfl

/-! ### Components that are alive -/

theorem objs_sound {w : World} {s : St} (hs : Reachable w s) : ∀ i ∈ s.objs, ∃ l e, e ∈ w l ∧ i = instOf l e := by
  obtain ⟨ops, hr⟩ := hs
  induction ops using Registry.snoc_induction generalizing s with
  | nil => simp only [run, Option.some.injEq] at hr; rw [← hr]; simp [init]
  | snoc ops o ih =>
    rw [run_snoc] at hr
    rcases h0 : run w (init w) ops with _ | s0
    · rw [h0] at hr; cases hr
    rw [h0] at hr
    have ih0 := ih h0
    simp only [Option.bind_some, Option.map_eq_some_iff] at hr
    obtain ⟨⟨s1, out⟩, hst, rfl⟩ := hr
    cases o with
    | load p d =>
      simp only [step, Option.some.injEq] at hst
      unfold load at hst
      split at hst
      · cases hst; exact ih0
      · split at hst <;> (cases hst; exact ih0)
    | unload p c =>
      simp only [step, Option.some.injEq] at hst
      unfold unload at hst
      split at hst
      · cases hst; exact ih0
      · rename_i x _
        split at hst
        · cases hst; exact ih0
        · cases hst
          have : (closed w s0 x c).objs = s0.objs := by
            cases c <;> simp only [closed]
            split <;> rfl
          simpa [this] using ih0
    | unloadAll c =>
      simp only [step, Option.some.injEq] at hst
      cases hst
      have : ∀ ps (s : St), (closeAll w s c ps).objs = s.objs := by
        intro ps
        induction ps with
        | nil => intro s; rfl
        | cons e ps ih =>
          intro s
          rw [closeAll, ih]
          cases c e.1 <;> simp only [closed]
          split <;> rfl
      simpa [this] using ih0
    | create name =>
      simp only [step] at hst
      split at hst
      · cases hst; exact ih0
      · rename_i i hi
        split at hst
        · cases hst
          intro j hj
          rcases List.mem_append.mp hj with hj | hj
          · exact ih0 j hj
          · have : j = i := by simpa using hj
            obtain ⟨l, e, _, he, hie⟩ := create_sound ⟨ops, h0⟩ hi
            exact ⟨l, e, he, this ▸ hie⟩
        · cases hst
    | destroy n =>
      simp only [step] at hst
      split at hst
      · cases hst
      · split at hst
        · cases hst
          intro j hj
          exact ih0 j (List.mem_of_mem_eraseIdx hj)
        · cases hst

/-- C105 (partial: the implementation is the program's, or its plugin is loaded). The component can be destroyed.
    Missing: components that outlive their plugin (C105_negation_outlives). -/
theorem C105_destroy_partial {w : World} {s : St} (hs : Reachable w s) (n : Nat) (i : Inst Code)
    (hi : s.objs[n]? = some i) (hl : i.madeBy.lib = none ∨ ∃ p h, s.plugins.find? p = some h ∧ i.madeBy.lib = some h) :
    step w s (.destroy n) = some ({ s with objs := s.objs.eraseIdx n }, .ok) := by
  obtain ⟨l, e, he, hie⟩ := objs_sound hs i (List.mem_of_getElem? hi)
  have hm : inMemory s i.release.lib = true := by
    rw [inMemory_iff]
    have e1 : i.release.lib = i.madeBy.lib := by rw [hie]; rfl
    rw [e1]
    rcases hl with hl | ⟨p, h, hp, hl⟩
    · rw [hl]; trivial
    · rw [hl]; exact C105_loaded hs p h hp
  simp only [step, hi, hm, if_true]

/-- C105. Releasing a component calls code of the library that made it: it is undefined exactly if that library is not in
    memory any more. -/
theorem C105_destroy_iff {w : World} {s : St} (hs : Reachable w s) (n : Nat) (i : Inst Code)
    (hi : s.objs[n]? = some i) : step w s (.destroy n) = none ↔ ¬ Present s i.madeBy.lib := by
  obtain ⟨l, e, he, hie⟩ := objs_sound hs i (List.mem_of_getElem? hi)
  have e1 : i.release.lib = i.madeBy.lib := by rw [hie]; rfl
  have e2 := inMemory_iff s i.madeBy.lib
  rcases hm : inMemory s i.madeBy.lib with _ | _
  · rw [hm] at e2
    simp only [step, hi, e1, hm]
    simpa using e2
  · rw [hm] at e2
    simp only [step, hi, e1, hm, if_true]
    simpa using e2

/-- C105, negation. A component that outlives its plugin: load, create, unload (the library goes), and releasing the
    component calls code that is not there any more. For every library with at least one implementation. -/
theorem C105_negation_outlives (w : World) (hd : Distinct w) (h : Nat) (e : Entry) (he : e ∈ w (some h)) (p : Str) :
    (∃ s, run w (init w) [.load p (some h), .create e.key, .unload p .gone] = some s) ∧
    run w (init w) [.load p (some h), .create e.key, .unload p .gone, .destroy 0] = none := by
  let s1 : St := { opened w (init w) h with plugins := (init w).plugins.insert p h }
  have hs1 : run w (init w) [.load p (some h)] = some s1 := rfl
  have hr1 : Reachable w s1 := ⟨_, hs1⟩
  have hp1 : Present s1 (some h) := by simp [s1, Present, opened, init]
  have hc : Registry.createComp s1.reg e.key = some (instOf (some h) e) :=
    (createComp_iff hd hr1 e.key _).mpr ⟨some h, e, hp1, he, mem_names_key e, rfl⟩
  let s2 : St := { s1 with objs := [instOf (some h) e] }
  have hst2 : step w s1 (.create e.key) = some (s2, .made (some (instOf (some h) e))) := by
    have hm : inMemory s1 (instOf (some h) e).madeBy.lib = true := (inMemory_iff _ _).mpr hp1
    simp only [step, hc]
    rw [if_pos hm]
    rfl
  let s3 : St := { closed w s2 h .gone with plugins := s2.plugins.erase p }
  have hf : s2.plugins.find? p = some h := by simp [s2, s1, AMap.find?_insert]
  have hst3 : step w s2 (.unload p .gone) = some (s3, .ok) := by
    simp only [step, unload, hf]
    rfl
  have hc2 : s2.count h = 1 := by simp [s2, s1, opened, init]
  have hm3 : h ∉ s3.mapped := by simp [s3, closed, hc2]
  have ho3 : s3.objs = [instOf (some h) e] := by
    show (closed w s2 h .gone).objs = _
    simp only [closed, hc2, if_true]
    rfl
  have h1 : step w (init w) (.load p (some h)) = some (s1, .ok) := rfl
  refine ⟨⟨s3, by simp only [run, h1, hst2, hst3]⟩, ?_⟩
  have hd4 : step w s3 (.destroy 0) = none := by
    have : inMemory s3 (instOf (some h) e).release.lib = false := by
      simp [inMemory, instOf, hm3]
    simp [step, ho3, this]
  simp only [run, h1, hst2, hst3, hd4]

/-- A program with an implementation, a plugin with another, and a plugin that overrides the program's. -/
def demoWorld : World
  | none => [⟨"material::diffuse".toList, []⟩]
  | some 0 => [⟨"material::wood".toList, "wood".toList⟩, ⟨"material::oak".toList, []⟩]
  | some 1 => [⟨"material::diffuse".toList, []⟩]
  | some _ => []

/-- A program and one plugin, whose names are different. -/
def demoDistinct : World
  | none => [⟨"material::diffuse".toList, []⟩]
  | some 0 => [⟨"material::wood".toList, "wood".toList⟩, ⟨"material::oak".toList, []⟩]
  | some _ => []

theorem demoDistinct_distinct : Distinct demoDistinct := by
  constructor
  · intro l
    match l with
    | none => simp [demoDistinct]
    | some 0 => simp [demoDistinct, names]
    | some (n + 1) => simp [demoDistinct]
  · intro l l' hl e he e' he'
    match l, l' with
    | none, none => exact absurd rfl hl
    | none, some 0 =>
      simp only [demoDistinct, List.mem_cons, List.not_mem_nil, or_false] at he he'
      subst he
      rcases he' with rfl | rfl <;> simp [names]
    | some 0, none =>
      simp only [demoDistinct, List.mem_cons, List.not_mem_nil, or_false] at he he'
      subst he'
      rcases he with rfl | rfl <;> simp [names]
    | some 0, some 0 => exact absurd rfl hl
    | some (n + 1), _ => simp [demoDistinct] at he
    | _, some (n + 1) => simp [demoDistinct] at he'

/-- The state after loading the plugin of the demonstration and creating one of its components. -/
def demoState : Option St := run demoDistinct (init demoDistinct) [.load "p".toList (some 0), .create "wood".toList]

example : ∃ s, Reachable demoDistinct s ∧ Present s (some 0) ∧ s.objs = [instOf (some 0) ⟨"material::wood".toList, "wood".toList⟩] ∧
    s.plugins.find? "p".toList = some 0 := by
  have h1 : demoState.isSome = true := by decide
  have h2 : ∀ s ∈ demoState, 0 ∈ s.mapped ∧
      s.objs = [instOf (some 0) ⟨"material::wood".toList, "wood".toList⟩] ∧ s.plugins.find? "p".toList = some 0 := by
    intro s hs
    have hs' := Option.some.inj hs
    subst hs'
    decide
  obtain ⟨s, hs⟩ := Option.isSome_iff_exists.mp h1
  exact ⟨s, ⟨_, hs⟩, h2 s hs⟩

/-- C105, negation. A plugin that overrides an implementation of the program takes it away when it goes: before, the
    name could be created, afterwards it cannot, with no plugin loaded in both cases. -/
theorem C105_negation_override :
    (∃ s, run demoWorld (init demoWorld) [] = some s ∧
      (step demoWorld s (.create "material::diffuse".toList)).map Prod.snd =
        some (.made (some (instOf none ⟨"material::diffuse".toList, []⟩)))) ∧
    ∃ s, run demoWorld (init demoWorld) [.load "p".toList (some 1), .unload "p".toList .gone] = some s ∧
      s.mapped = [] ∧ s.plugins = [] ∧
      (step demoWorld s (.create "material::diffuse".toList)).map Prod.snd = some (.made none) :=
  ⟨⟨init demoWorld, rfl, by decide⟩, ⟨_, rfl, by decide, by decide, by decide⟩⟩

/-! ### Nothing is unloaded -/

/-- C105 (partial: nothing is unloaded). Every component that is alive can be destroyed, at any time.
    Missing: histories with unloads (C105_destroy_iff, C105_negation_outlives). -/
theorem C105_no_unload_partial {w : World} (ops : List Op)
    (hno : ∀ o ∈ ops, (∀ p c, o ≠ .unload p c) ∧ ∀ c, o ≠ .unloadAll c) {s : St} (hr : run w (init w) ops = some s)
    (n : Nat) (hn : n < s.objs.length) :
    step w s (.destroy n) = some ({ s with objs := s.objs.eraseIdx n }, .ok) := by
  suffices ∀ i ∈ s.objs, Present s i.madeBy.lib by
    have hi : s.objs[n]? = some s.objs[n] := List.getElem?_eq_getElem hn
    have h1 := C105_destroy_iff ⟨ops, hr⟩ n _ hi
    have h2 : step w s (.destroy n) ≠ none := fun h => (h1.mp h) (this _ (List.getElem_mem hn))
    simp only [step, hi] at h2 ⊢
    split
    · rfl
    · rename_i h; simp [h] at h2
  induction ops using Registry.snoc_induction generalizing s n with
  | nil => simp only [run, Option.some.injEq] at hr; rw [← hr]; simp [init]
  | snoc ops o ih =>
    rw [run_snoc] at hr
    rcases h0 : run w (init w) ops with _ | s0
    · rw [h0] at hr; cases hr
    rw [h0] at hr
    simp only [Option.bind_some, Option.map_eq_some_iff] at hr
    obtain ⟨⟨s1, out⟩, hst, rfl⟩ := hr
    have ih0 : ∀ i ∈ s0.objs, Present s0 i.madeBy.lib := by
      intro i hi
      obtain ⟨k, hk, _⟩ := List.getElem_of_mem hi
      exact ih (fun o ho => hno o (List.mem_append_left _ ho)) h0 k hk i hi
    cases o with
    | load p d =>
      simp only [step, Option.some.injEq] at hst
      unfold load at hst
      split at hst
      · cases hst; exact ih0
      · split at hst
        · cases hst; exact ih0
        · rename_i h
          cases hst
          intro i hi
          have := ih0 i hi
          revert this
          cases i.madeBy.lib with
          | none => exact fun _ => trivial
          | some g =>
            intro hg
            have hg' : g ∈ s0.mapped := hg
            show g ∈ (opened w s0 h).mapped
            simp only [opened]
            split
            · exact hg'
            · exact List.mem_cons_of_mem _ hg'
    | unload p c => exact absurd rfl ((hno (.unload p c) (by simp)).1 p c)
    | unloadAll c => exact absurd rfl ((hno (.unloadAll c) (by simp)).2 c)
    | create name =>
      simp only [step] at hst
      split at hst
      · cases hst; exact ih0
      · split at hst
        · rename_i i hi hm
          cases hst
          intro j hj
          rcases List.mem_append.mp hj with hj | hj
          · exact ih0 j hj
          · have : j = i := by simpa using hj
            subst this
            exact (inMemory_iff s0 _).mp hm
        · cases hst
    | destroy m =>
      simp only [step] at hst
      split at hst
      · cases hst
      · split at hst
        · cases hst
          intro j hj
          exact ih0 j (List.mem_of_mem_eraseIdx hj)
        · cases hst

example : ∃ s, run demoDistinct (init demoDistinct) [.load "p".toList (some 0), .create "wood".toList] = some s ∧
    0 < s.objs.length := ⟨_, rfl, by decide⟩

/-! ### Listing what is registered -/

theorem enter_nodup (es : List Entry) (r : Reg Code) (l : Option Nat) (h : r.funcs.keys.Nodup) :
    (enter r l es).funcs.keys.Nodup := by
  induction es generalizing r with
  | nil => exact h
  | cons e es ih => exact ih _ (AMap.keys_insert_nodup _ _ h)

theorem leave_nodup (es : List Entry) (r : Reg Code) (h : r.funcs.keys.Nodup) : (leave r es).funcs.keys.Nodup := by
  induction es with
  | nil => exact h
  | cons e es ih => exact AMap.keys_erase_nodup _ ih

/-- C105. The callback of the listing is called once for every key, and for a key exactly if an implementation is
    registered under it: one that the program or a library in memory has. -/
theorem C105_foreach {w : World} {s : St} (hs : Reachable w s) :
    (foreachRegistered s).Nodup ∧
    (∀ k, k ∈ foreachRegistered s ↔ ∃ f, s.reg.funcs.find? k = some f) ∧
    (∀ k ∈ foreachRegistered s, ∃ l, Present s l ∧ ∃ e ∈ w l, e.key = k) ∧
    (Distinct w → ∀ l, Present s l → ∀ e ∈ w l, e.key ∈ foreachRegistered s) := by
  have h2 : ∀ k, k ∈ foreachRegistered s ↔ ∃ f, s.reg.funcs.find? k = some f :=
    fun k => AMap.mem_keys_iff s.reg.funcs k
  refine ⟨?_, h2, ?_, ?_⟩
  · refine reachable_induction (w := w) (P := fun r _ _ => r.funcs.keys.Nodup) ?_ ?_ ?_ hs
    · exact enter_nodup _ _ _ (by simp [Reg.init, AMap.keys])
    · intro s h ih
      simp only [opened]
      split
      · exact ih
      · exact enter_nodup _ _ _ ih
    · intro s h c ih
      rcases closed_cases w s h c with ⟨hr, _⟩ | ⟨hr, _⟩
      · rw [hr]; exact ih
      · rw [hr]; exact leave_nodup _ _ ih
  · intro k hk
    obtain ⟨f, hf⟩ := (h2 k).mp hk
    obtain ⟨l, hl, e, he, hek, _⟩ := reg_sound hs k f hf
    exact ⟨l, hl, e, he, hek⟩
  · intro hd l hl e he
    exact (h2 e.key).mpr ⟨_, (reg_complete hd hs l hl e he).1⟩

/-! ### Directories -/

/-- C105. Which files of a directory are plugins: those named by at least one digit, small letter or underscore,
    followed by ".so"; the name of the plugin is the part before. -/
theorem C105_plugin_name (file st : Str) :
    pluginName file = some st ↔ file = st ++ ".so".toList ∧ st ≠ [] ∧
      ∀ c ∈ st, ('0' ≤ c ∧ c ≤ '9') ∨ ('a' ≤ c ∧ c ≤ 'z') ∨ c = '_' := by
  have hso : ".so".toList.length = 3 := by decide
  unfold pluginName
  constructor
  · intro h
    simp only at h
    split at h
    · rename_i hc
      have h' := Option.some.inj h
      refine ⟨?_, h' ▸ hc.2.1, ?_⟩
      · rw [← h', ← hc.1, List.take_append_drop]
      · rw [← h']
        intro c hcm
        simpa using List.all_eq_true.mp hc.2.2 c hcm
    · cases h
  · rintro ⟨rfl, hne, hall⟩
    have hl : (st ++ ".so".toList).length - 3 = st.length := by rw [List.length_append, hso]; omega
    simp only [hl, List.take_left, List.drop_left]
    rw [if_pos]
    refine ⟨trivial, hne, ?_⟩
    rw [List.all_eq_true]
    intro c hc
    simpa using hall c hc

example : pluginName "accel_embree.so".toList = some "accel_embree".toList := by decide
example : pluginName "libfoo.so.1".toList = none ∧ pluginName "Foo.so".toList = none := by decide

theorem loadEntries_ok (w : World) (dlopen : Str → Option Nat) (es : List (Str × Bool)) (s : St)
    (hok : ∀ st ∈ pluginsIn es, s.plugins.find? st ≠ none ∨ dlopen (st ++ ".so".toList) ≠ none) :
    (loadEntries w s dlopen es).2 = .ok ∧ ∀ q, (loadEntries w s dlopen es).1.plugins.find? q =
      match s.plugins.find? q with
      | some h => some h
      | none => if q ∈ pluginsIn es then dlopen (q ++ ".so".toList) else none := by
  induction es generalizing s with
  | nil =>
    refine ⟨rfl, ?_⟩
    intro q
    simp only [loadEntries, pluginsIn, List.filterMap_nil, List.not_mem_nil, if_false]
    cases s.plugins.find? q <;> rfl
  | cons e es ih =>
    obtain ⟨file, reg⟩ := e
    cases reg with
    | false =>
      have : pluginsIn ((file, false) :: es) = pluginsIn es := by simp [pluginsIn]
      rw [this] at hok ⊢
      simpa [loadEntries] using ih s hok
    | true =>
      cases hn : pluginName file with
      | none =>
        have : pluginsIn ((file, true) :: es) = pluginsIn es := by simp [pluginsIn, hn]
        rw [this] at hok ⊢
        simpa [loadEntries, hn] using ih s hok
      | some st =>
        have hpi : pluginsIn ((file, true) :: es) = st :: pluginsIn es := by simp [pluginsIn, hn]
        rw [hpi] at hok ⊢
        cases hp : s.plugins.find? st with
        | some x =>
          have hl : loadEntries w s dlopen ((file, true) :: es) = loadEntries w s dlopen es := by
            simp [loadEntries, hn, load, hp]
          rw [hl]
          obtain ⟨h1, h2⟩ := ih s (fun t ht => hok t (List.mem_cons_of_mem _ ht))
          refine ⟨h1, ?_⟩
          intro q
          rw [h2 q]
          rcases hq : s.plugins.find? q with _ | y
          · have : q ≠ st := by rintro rfl; rw [hp] at hq; cases hq
            simp [this]
          · rfl
        | none =>
          rcases hd : dlopen (st ++ ".so".toList) with _ | x
          · rcases hok st (List.mem_cons_self ..) with h | h
            · exact absurd hp h
            · exact absurd hd h
          · have hl : loadEntries w s dlopen ((file, true) :: es) =
                loadEntries w { opened w s x with plugins := s.plugins.insert st x } dlopen es := by
              simp only [loadEntries, hn, load, hp, hd, Bool.true_eq_false, if_false]
            rw [hl]
            obtain ⟨h1, h2⟩ := ih { opened w s x with plugins := s.plugins.insert st x } (by
              intro t ht
              by_cases e : t = st
              · left; simp [AMap.find?_insert, e]
              · rcases hok t (List.mem_cons_of_mem _ ht) with h | h
                · left; simpa [AMap.find?_insert, e] using h
                · right; exact h)
            refine ⟨h1, ?_⟩
            intro q
            rw [h2 q]
            simp only [AMap.find?_insert, List.mem_cons]
            by_cases e : q = st
            · subst e
              simp only [if_true, hp, hd, true_or]
            · simp [e]

/-- C105. Loading a directory whose plugins are loaded already or can be opened by name: afterwards exactly the plugins
    of the directory are loaded in addition, each under its name without the directory; a directory that does not exist
    changes nothing. -/
theorem C105_directory (w : World) (s : St) (dlopen : Str → Option Nat) (es : List (Str × Bool))
    (hok : ∀ st ∈ pluginsIn es, s.plugins.find? st ≠ none ∨ dlopen (st ++ ".so".toList) ≠ none) :
    (loadDirectory w s dlopen (some es)).2 = .ok ∧
    (∀ q, (loadDirectory w s dlopen (some es)).1.plugins.find? q =
      match s.plugins.find? q with
      | some h => some h
      | none => if q ∈ pluginsIn es then dlopen (q ++ ".so".toList) else none) ∧
    loadDirectory w s dlopen none = (s, .ok) :=
  ⟨(loadEntries_ok w dlopen es s hok).1, (loadEntries_ok w dlopen es s hok).2, rfl⟩

/-- C105. The first plugin of the directory that cannot be opened raises an error: those before it stay loaded, those
    after it are not looked at. -/
theorem C105_directory_fails (w : World) (s : St) (dlopen : Str → Option Nat) (pre post : List (Str × Bool)) (file st : Str)
    (hst : pluginName file = some st) (hpre : (loadDirectory w s dlopen (some pre)).2 = .ok)
    (hp : (loadDirectory w s dlopen (some pre)).1.plugins.find? st = none) (hd : dlopen (st ++ ".so".toList) = none) :
    loadDirectory w s dlopen (some (pre ++ (file, true) :: post)) =
      ((loadDirectory w s dlopen (some pre)).1, .ioError) := by
  simp only [loadDirectory] at hpre hp ⊢
  induction pre generalizing s with
  | nil =>
    have hp' : s.plugins.find? st = none := hp
    simp only [List.nil_append, loadEntries, hst, load, hp', hd, Bool.true_eq_false, if_false]
  | cons e pre ih =>
    obtain ⟨f, r⟩ := e
    simp only [List.cons_append, loadEntries] at hpre hp ⊢
    cases r with
    | false =>
      simp only [if_true] at hpre hp ⊢
      exact ih s hpre hp
    | true =>
      simp only [Bool.true_eq_false, if_false] at hpre hp ⊢
      cases hn : pluginName f with
      | none =>
        simp only [hn] at hpre hp ⊢
        exact ih s hpre hp
      | some t =>
        simp only [hn] at hpre hp ⊢
        rcases hl : load w s t (dlopen (t ++ ".so".toList)) with ⟨s', o⟩
        simp only [hl] at hpre hp ⊢
        cases o with
        | ioError => cases hpre
        | ok => exact ih s' hpre hp
        | alreadyLoaded => exact ih s' hpre hp
        | made i => exact ih s' hpre hp

example : pluginName "b.so".toList = some "b".toList ∧
    (loadDirectory demoWorld (init demoWorld) (fun n => if n = "a.so".toList then some 0 else none)
      (some [("a.so".toList, true)])).2 = .ok ∧
    (loadDirectory demoWorld (init demoWorld) (fun n => if n = "a.so".toList then some 0 else none)
      (some [("a.so".toList, true)])).1.plugins.find? "b".toList = none := by decide

/-- C105, negation. Plugins are opened by their name alone: what is loaded for a plugin in a directory is the library of
    that name on the search path of the system. A directory that is not on it, whose plugins are nowhere on it, cannot be
    loaded: the first plugin is an error. -/
theorem C105_negation_directory_not_searched (w : World) (s : St) (files : Files) (path : List Str) (d file st : Str)
    (rest : List (Str × Bool)) (h : Nat) (hst : pluginName file = some st) (_hin : files d file = some h)
    (hnot : ∀ d' ∈ path, files d' file = none) (hp : s.plugins.find? st = none) :
    loadDirectory w s (searched files path) (some ((file, true) :: rest)) = (s, .ioError) := by
  have hf := ((C105_plugin_name file st).mp hst).1
  have hs : searched files path (st ++ ".so".toList) = none := by
    unfold searched
    rw [List.findSome?_eq_none_iff, ← hf]
    exact hnot
  exact C105_directory_fails w s _ [] rest file st hst rfl hp hs

/-- C105, negation. If another directory on the search path has a library of the same name, that one is loaded, and not
    the one in the directory that was asked for. -/
theorem C105_negation_other_directory (w : World) (s : St) (files : Files) (path : List Str) (d d' file st : Str)
    (h h' : Nat) (hst : pluginName file = some st) (_hin : files d file = some h) (hother : files d' file = some h')
    (hne : h ≠ h') (hp : s.plugins.find? st = none) :
    (loadDirectory w s (searched files (d' :: path)) (some [(file, true)])).2 = .ok ∧
    (loadDirectory w s (searched files (d' :: path)) (some [(file, true)])).1.plugins.find? st = some h' ∧
    (loadDirectory w s (searched files (d' :: path)) (some [(file, true)])).1.plugins.find? st ≠ some h := by
  have hf := ((C105_plugin_name file st).mp hst).1
  have hs : searched files (d' :: path) (st ++ ".so".toList) = some h' := by
    rw [← hf]
    simp [searched, hother]
  have hpi : pluginsIn [(file, true)] = [st] := by simp [pluginsIn, hst]
  have := C105_directory w s (searched files (d' :: path)) [(file, true)] (by
    rw [hpi]
    intro t ht
    have : t = st := by simpa using ht
    subst this
    right
    rw [hs]; simp)
  refine ⟨this.1, ?_⟩
  rw [this.2.1 st, hp, hpi]
  simp only [List.mem_cons, List.not_mem_nil, or_false, if_true, hs]
  exact ⟨trivial, fun e => hne (Option.some.inj e).symm⟩

/-- C105 (partial: every plugin of the directory is found there first). Then loading the directory loads its plugins:
    those not loaded already come from this directory.
    Missing: directories that are not searched, or not first (C105_negation_directory_not_searched,
    C105_negation_other_directory). -/
theorem C105_directory_partial (w : World) (s : St) (files : Files) (path : List Str) (d : Str) (es : List (Str × Bool))
    (hfirst : ∀ st ∈ pluginsIn es, files d (st ++ ".so".toList) ≠ none ∧
      searched files path (st ++ ".so".toList) = files d (st ++ ".so".toList)) :
    (loadDirectory w s (searched files path) (some es)).2 = .ok ∧
    ∀ q, (loadDirectory w s (searched files path) (some es)).1.plugins.find? q =
      match s.plugins.find? q with
      | some h => some h
      | none => if q ∈ pluginsIn es then files d (q ++ ".so".toList) else none := by
  have := C105_directory w s (searched files path) es (fun st hst => Or.inr (by
    rw [(hfirst st hst).2]; exact (hfirst st hst).1))
  refine ⟨this.1, ?_⟩
  intro q
  rw [this.2.1 q]
  rcases s.plugins.find? q with _ | x
  · simp only
    split
    · rename_i hq; exact (hfirst q hq).2
    · rfl
  · rfl

example : ∀ st ∈ pluginsIn [("a.so".toList, true), ("readme.txt".toList, true)],
    (fun d n => if d = "dir".toList ∧ n = "a.so".toList then some 0 else none : Files) "dir".toList (st ++ ".so".toList) ≠ none ∧
    searched (fun d n => if d = "dir".toList ∧ n = "a.so".toList then some 0 else none) ["dir".toList]
      (st ++ ".so".toList) =
    (fun d n => if d = "dir".toList ∧ n = "a.so".toList then some 0 else none : Files) "dir".toList (st ++ ".so".toList) := by
  decide

end LM.Plugins
