import Verif.Spec.Registry
namespace LM.Plugin
open Spec

/-- Abstraction: the plugin table as a partial function. -/
def absSt (s : St) : AbsState := fun p => s.plugins.find? p

theorem step_refines (s : St) (o : Op) :
    absSt (step s o).1 = (next (absSt s) o).1 ∧ (step s o).2 = (next (absSt s) o).2 := by
  cases o with
  | load p o =>
    cases hp : s.plugins.find? p with
    | some h =>
      have : absSt s p = some h := hp
      simp [step, load, next, hp, this]
    | none =>
      have : absSt s p = none := hp
      cases o with
      | none => simp [step, load, next, hp, this]
      | some h =>
        simp only [step, load, next, hp, this, and_true]
        funext q; simp [absSt, AMap.find?_insert]
  | unload p ok =>
    cases hp : s.plugins.find? p with
    | none =>
      have : absSt s p = none := hp
      cases ok <;> simp [step, unload, next, hp, this]
    | some h =>
      have : absSt s p = some h := hp
      cases ok with
      | false => simp [step, unload, next, hp, this]; rfl
      | true =>
        simp only [step, unload, next, hp, this, and_true, if_true]
        funext q; simp [absSt, AMap.find?_erase]
  | unloadAll f =>
    simp only [step, unloadAll, next, and_true]; rfl

/-- C02. For every history and all answers of the dynamic linker the plugin manager behaves like the abstract map
    path → handle: same visible outcomes, same set of loaded plugins. -/
theorem C02_refines (ops : List Op) (s : St) :
    absSt (run s ops).1 = (runAbs (absSt s) ops).1 ∧ (run s ops).2 = (runAbs (absSt s) ops).2 := by
  induction ops generalizing s with
  | nil => exact ⟨rfl, rfl⟩
  | cons o ops ih =>
    have h1 := step_refines s o
    have h2 := ih (step s o).1
    simp only [run, runAbs]
    rw [← h1.1, ← h1.2]
    exact ⟨h2.1, by rw [h2.2]⟩

/-- C02. A failing call leaves the set of loaded plugins unchanged. -/
theorem C02_error_changes_nothing (s : St) (o : Op) (h : (step s o).2 = .ioError) :
    ∀ p, (step s o).1.plugins.find? p = s.plugins.find? p := by
  have hr := step_refines s o
  intro p
  have : absSt (step s o).1 p = absSt s p := by
    rw [hr.1]; rw [hr.2] at h
    cases o with
    | load q o =>
      unfold next at *
      cases hq : absSt s q <;> cases o <;> simp_all
    | unload q ok =>
      unfold next at *
      cases hq : absSt s q <;> cases ok <;> simp_all
    | unloadAll f => simp [next] at h
  exact this

/-- C02. Loading a loaded plugin is a no-op, loading an unloaded one asks the system exactly once. -/
theorem C02_reload_noop (s : St) (p : Str) (o : Option Nat) (hp : s.plugins.find? p ≠ none) :
    load s p o = (s, .alreadyLoaded) := by
  unfold load
  cases h : s.plugins.find? p with
  | none => exact absurd h hp
  | some x => rfl

/-- C02. Unloading a plugin that is not loaded is an error and does not touch the system. -/
theorem C02_unload_unknown (s : St) (p : Str) (b : Bool) (hp : s.plugins.find? p = none) :
    unload s p b = (s, .ioError) := by
  unfold unload; rw [hp]

theorem held_filter_erase (m : AMap Str Nat) (hn : m.keys.Nodup) (p : Str) (h x : Nat) (hp : m.find? p = some x) :
    held h m = held h (m.erase p) + if x = h then 1 else 0 := by
  induction m with
  | nil => simp at hp
  | cons e m ih =>
    obtain ⟨k, v⟩ := e
    have hn' : (AMap.keys m).Nodup := (List.nodup_cons.mp (show (k :: AMap.keys m).Nodup from hn)).2
    have hk : k ∉ AMap.keys m := (List.nodup_cons.mp (show (k :: AMap.keys m).Nodup from hn)).1
    by_cases hkp : k = p
    · subst hkp
      have hxv : v = x := by simpa [AMap.find?] using hp
      subst hxv
      have herase : AMap.erase m k = m := by
        unfold AMap.erase
        apply List.filter_eq_self.mpr
        intro e he
        have : e.1 ≠ k := fun h1 => hk (List.mem_map.mpr ⟨e, he, h1⟩)
        simp [this]
      have : AMap.erase ((k, v) :: m) k = AMap.erase m k := by simp [AMap.erase]
      rw [this, herase]
      unfold held
      by_cases hv : v = h
      · simp [hv]
      · simp [hv]
    · have hp' : AMap.find? m p = some x := by simpa [AMap.find?, hkp] using hp
      have : AMap.erase ((k, v) :: m) p = (k, v) :: AMap.erase m p := by simp [AMap.erase, hkp]
      rw [this]
      have hih := ih hn' hp'
      unfold held at *
      by_cases hv : v = h
      · simp [hv]; omega
      · simp [hv]; omega

theorem erase_of_find_none (m : AMap Str Nat) (p : Str) (hp : m.find? p = none) : AMap.erase m p = m := by
  unfold AMap.erase
  apply List.filter_eq_self.mpr
  intro e he
  have : e.1 ≠ p := by
    intro h1
    have := (AMap.mem_keys_iff m p).mp (List.mem_map.mpr ⟨e, he, h1⟩)
    rw [hp] at this; simp at this
  simp [this]

theorem opens_append (h : Nat) (t t' : List Event) : opens h (t ++ t') = opens h t + opens h t' := by
  simp [opens]
theorem closes_append (h : Nat) (t t' : List Event) : closes h (t ++ t') = closes h t + closes h t' := by
  simp [closes]

theorem opens_closeList (h : Nat) (m : AMap Str Nat) (f : Str → Bool) :
    opens h (m.map (fun e => Event.closeTried e.2 (f e.1))) = 0 := by
  induction m with
  | nil => rfl
  | cons e m ih => simpa [opens] using ih

theorem closes_closeList (h : Nat) (m : AMap Str Nat) (f : Str → Bool) (hf : ∀ p, f p = true) :
    closes h (m.map (fun e => Event.closeTried e.2 (f e.1))) = held h m := by
  induction m with
  | nil => rfl
  | cons e m ih =>
    obtain ⟨k, v⟩ := e
    unfold closes held at *
    simp only [List.map_cons, List.filter_cons]
    by_cases hv : v = h
    · simp [hv, hf, ih] at *; simpa [hf] using ih
    · simp [hv, hf]; simpa [hf] using ih

/-- The plugin table has distinct keys. -/
theorem step_nodup (s : St) (o : Op) (h : s.plugins.keys.Nodup) : (step s o).1.plugins.keys.Nodup := by
  cases o with
  | load p o =>
    cases hp : s.plugins.find? p with
    | some _ => simpa [step, load, hp] using h
    | none => cases o with
      | none => simpa [step, load, hp] using h
      | some x => simpa [step, load, hp] using AMap.keys_insert_nodup p x h
  | unload p ok =>
    cases hp : s.plugins.find? p with
    | none => simpa [step, unload, hp] using h
    | some _ => cases ok with
      | false => simpa [step, unload, hp] using h
      | true => simpa [step, unload, hp] using AMap.keys_erase_nodup p h
  | unloadAll f => exact List.nodup_nil

theorem step_handles (s : St) (o : Op) (hn : s.plugins.keys.Nodup)
    (hall : ∀ f, o = .unloadAll f → ∀ p, f p = true) (h : Nat)
    (hinv : opens h s.trace = closes h s.trace + held h s.plugins) :
    opens h (step s o).1.trace = closes h (step s o).1.trace + held h (step s o).1.plugins := by
  cases o with
  | load p o =>
    cases hp : s.plugins.find? p with
    | some _ => simpa [step, load, hp] using hinv
    | none => cases o with
      | none => simpa [step, load, hp] using hinv
      | some x =>
        simp only [step, load, hp, opens_append, closes_append]
        have h1 : closes h [Event.opened x] = 0 := by simp [closes]
        have h2 : opens h [Event.opened x] = if x = h then 1 else 0 := by
          unfold opens; by_cases hx : x = h <;> simp [hx]
        have h3 : held h (s.plugins.insert p x) = held h s.plugins + if x = h then 1 else 0 := by
          unfold AMap.insert; rw [erase_of_find_none _ _ hp]
          unfold held; by_cases hx : x = h <;> simp [hx]
        omega
  | unload p ok =>
    cases hp : s.plugins.find? p with
    | none => simpa [step, unload, hp] using hinv
    | some x => cases ok with
      | false =>
        simp only [step, unload, hp, opens_append, closes_append, Bool.false_eq_true, if_false]
        have h1 : closes h [Event.closeTried x false] = 0 := by simp [closes]
        have h2 : opens h [Event.closeTried x false] = 0 := by simp [opens]
        omega
      | true =>
        simp only [step, unload, hp, opens_append, closes_append, if_true]
        have h1 : closes h [Event.closeTried x true] = if x = h then 1 else 0 := by
          unfold closes; by_cases hx : x = h <;> simp [hx]
        have h2 : opens h [Event.closeTried x true] = 0 := by simp [opens]
        have h3 := held_filter_erase s.plugins hn p h x hp
        omega
  | unloadAll f =>
    have hf := hall f rfl
    simp only [step, unloadAll, opens_append, closes_append, opens_closeList, closes_closeList _ _ _ hf]
    have : held h ([] : AMap Str Nat) = 0 := rfl
    omega

theorem run_handles (ops : List Op) (s : St) (hn : s.plugins.keys.Nodup) (hall : AllClosesSucceed ops) (h : Nat)
    (hinv : opens h s.trace = closes h s.trace + held h s.plugins) :
    opens h (run s ops).1.trace = closes h (run s ops).1.trace + held h (run s ops).1.plugins := by
  induction ops generalizing s with
  | nil => exact hinv
  | cons o ops ih =>
    exact ih _ (step_nodup s o hn) (fun f hf => hall f (List.mem_cons_of_mem _ hf))
      (step_handles s o hn (fun f hf => hall f (by simp [hf])) h hinv)

/-- C02. Handle accounting: as long as the system does not refuse closes during unload-all, every library handle has been
    opened exactly as often as it was closed plus the number of plugins currently holding it. -/
theorem C02_handles_accounted (ops : List Op) (hall : AllClosesSucceed ops) (h : Nat) :
    opens h (run St.init ops).1.trace
      = closes h (run St.init ops).1.trace + held h (run St.init ops).1.plugins :=
  run_handles ops St.init List.nodup_nil hall h rfl

/-- C02. No handle is released more often than it was acquired; after unload-all none is held and all are released. -/
theorem C02_unload_all_releases (ops : List Op) (f : Str → Bool) (hall : AllClosesSucceed (ops ++ [.unloadAll f])) (h : Nat) :
    opens h (run St.init (ops ++ [.unloadAll f])).1.trace = closes h (run St.init (ops ++ [.unloadAll f])).1.trace := by
  have h1 := C02_handles_accounted _ hall h
  have h2 : ∀ s, (run s (ops ++ [.unloadAll f])).1.plugins = [] := by
    clear hall h1
    induction ops with
    | nil => intro s; rfl
    | cons o ops ih => intro s; exact ih _
  rw [h2 St.init] at h1
  simpa [held] using h1

/-- Non-vacuity: a history with a refused load, a refused unload, a reload and an unload-all. -/
example : AllClosesSucceed [.load "p".toList none, .load "p".toList (some 7), .unload "p".toList false,
    .load "q".toList (some 8), .unload "p".toList true, .unloadAll (fun _ => true)] := by
  intro f hf p
  simp at hf
  rw [hf]

example : (run St.init [.load "p".toList none, .load "p".toList (some 7), .unload "p".toList false,
    .load "q".toList (some 8), .unload "p".toList true]).2 = [.ioError, .ok, .ioError, .ok, .ok] := by decide

/-- C02, negation without the hypothesis on the system: when `dlclose` is refused during unload-all the handle is
    forgotten: it is open, not held by any plugin entry, and can never be released. -/
theorem C02_negation_unload_all_leak :
    opens 7 (run St.init [.load "p".toList (some 7), .unloadAll (fun _ => false)]).1.trace = 1 ∧
    closes 7 (run St.init [.load "p".toList (some 7), .unloadAll (fun _ => false)]).1.trace = 0 ∧
    (run St.init [.load "p".toList (some 7), .unloadAll (fun _ => false)]).1.plugins = [] := by decide

/-- C72. A scoped load that completes leaves every listed plugin loaded. -/
theorem C72_scoped_load_ok (ps : List (Str × Option Nat)) (s : St) (h : (scopedLoad s ps).2 = true) :
    ∀ p ∈ ps.map Prod.fst, (scopedLoad s ps).1.plugins.find? p ≠ none := by
  have mono : ∀ (ps : List (Str × Option Nat)) (s : St) (q : Str), s.plugins.find? q ≠ none →
      (scopedLoad s ps).1.plugins.find? q ≠ none := by
    intro ps
    induction ps with
    | nil => intro s q hq; exact hq
    | cons e ps ih =>
      obtain ⟨p, o⟩ := e
      intro s q hq
      cases hp : s.plugins.find? p with
      | some x => simpa [scopedLoad, load, hp] using ih s q hq
      | none => cases o with
        | none => simpa [scopedLoad, load, hp] using hq
        | some x =>
          simp only [scopedLoad, load, hp]
          apply ih
          simp only [AMap.find?_insert]
          split <;> simp_all
  induction ps generalizing s with
  | nil => simp
  | cons e ps ih =>
    obtain ⟨p, o⟩ := e
    intro q hq
    cases hp : s.plugins.find? p with
    | some x =>
      simp only [scopedLoad, load, hp] at h ⊢
      rcases List.mem_cons.mp hq with rfl | hq
      · exact mono ps s q (by simp [hp])
      · exact ih s h q hq
    | none => cases o with
      | none => simp [scopedLoad, load, hp] at h
      | some x =>
        simp only [scopedLoad, load, hp] at h ⊢
        rcases List.mem_cons.mp hq with rfl | hq
        · exact mono ps _ q (by simp [AMap.find?_insert])
        · exact ih _ h q hq

example : (scopedLoad St.init [("p".toList, some 1), ("q".toList, some 2)]).2 = true := by decide

/-- C72, negation (as the code is): when the second plugin of a scoped load fails, the constructor throws, the destructor
    does not run, and the first plugin stays loaded although the guard never existed. -/
theorem C72_negation_partial_load_stays :
    ∃ ps, (scopedLoad St.init ps).2 = false ∧ (scopedLoad St.init ps).1.plugins.find? "p".toList = some 1 :=
  ⟨[("p".toList, some 1), ("q".toList, none)], by decide⟩

end LM.Plugin
