import Verif.Model.Plugins
import Verif.Props.C02_Plugin
/-
  C72: what leaving the scope of a plugin guard does (component.h:690-713).
-/
namespace LM.Plugin

/-- C72. When the guard is destroyed: the program goes on exactly if the paths are different, every one of them is
    loaded and the system does not refuse; then the listed plugins are unloaded, and the others are as before. -/
theorem C72_leave (ps : List (Str × Bool)) (s : St) :
    ((∃ s', scopedLeave s ps = some s') ↔
      (ps.map Prod.fst).Nodup ∧ ∀ e ∈ ps, s.plugins.find? e.1 ≠ none ∧ e.2 = true) ∧
    ∀ s', scopedLeave s ps = some s' →
      ∀ q, s'.plugins.find? q = if q ∈ ps.map Prod.fst then none else s.plugins.find? q := by
  induction ps generalizing s with
  | nil =>
    refine ⟨by simp [scopedLeave], ?_⟩
    intro s' h q
    simp only [scopedLeave, Option.some.injEq] at h
    simp [h]
  | cons e ps ih =>
    obtain ⟨p, b⟩ := e
    cases hp : s.plugins.find? p with
    | none =>
      simp [scopedLeave, unload, hp]
    | some x =>
      cases b with
      | false => simp [scopedLeave, unload, hp]
      | true =>
        have hs : scopedLeave s ((p, true) :: ps) =
            scopedLeave { plugins := s.plugins.erase p, trace := s.trace ++ [.closeTried x true] } ps := by
          simp [scopedLeave, unload, hp]
        rw [hs]
        obtain ⟨h1, h2⟩ := ih { plugins := s.plugins.erase p, trace := s.trace ++ [.closeTried x true] }
        constructor
        · rw [h1]
          simp only [AMap.find?_erase, List.map_cons, List.nodup_cons, List.mem_cons, forall_eq_or_imp, List.mem_map,
            not_exists, not_and]
          constructor
          · rintro ⟨hn, ha⟩
            refine ⟨⟨?_, hn⟩, ⟨by simp [hp], trivial⟩, ?_⟩
            · intro e he hep
              have := (ha e he).1
              simp [hep] at this
            · intro e he
              have := ha e he
              by_cases hep : e.1 = p
              · simp [hep] at this
              · simpa [hep] using this
          · rintro ⟨⟨hne, hn⟩, _, ha⟩
            refine ⟨hn, ?_⟩
            intro e he
            have : e.1 ≠ p := hne e he
            simpa [this] using ha e he
        · intro s' h q
          rw [h2 s' h q]
          simp only [AMap.find?_erase, List.map_cons, List.mem_cons]
          by_cases hq : q = p
          · subst hq; simp
          · simp [hq]

example : ∃ s', scopedLeave (scopedLoad St.init [("p".toList, some 1), ("q".toList, some 2)]).1
    [("p".toList, true), ("q".toList, true)] = some s' :=
  (C72_leave _ _).1.mpr ⟨by decide, by decide⟩

/-- A scoped load that completes: every plugin is loaded that was before, with the library it had. -/
theorem scopedLoad_keeps (ps : List (Str × Option Nat)) (s : St) (q : Str) (h : Nat) (hq : s.plugins.find? q = some h) :
    (scopedLoad s ps).1.plugins.find? q = some h := by
  induction ps generalizing s with
  | nil => exact hq
  | cons e ps ih =>
    obtain ⟨p, o⟩ := e
    cases hp : s.plugins.find? p with
    | some x => simpa [scopedLoad, load, hp] using ih s hq
    | none =>
      cases o with
      | none => simpa [scopedLoad, load, hp] using hq
      | some x =>
        simp only [scopedLoad, load, hp]
        apply ih
        simp only [AMap.find?_insert]
        by_cases e : q = p
        · subst e; rw [hp] at hq; cases hq
        · simpa [e] using hq

/-- C72 (partial: different plugins that were not loaded before, which the body of the scope leaves alone and the system
    does not refuse to unload). The scope loads the listed plugins; leaving it unloads them, and leaves every other plugin
    as it is at the end of the body.
    Missing: plugins that were loaded before (C72_negation_already_loaded), or listed twice (C72_negation_twice). -/
theorem C72_scope_partial (ps : List (Str × Option Nat)) (s s2 : St) (hn : (ps.map Prod.fst).Nodup)
    (hf : ∀ e ∈ ps, s.plugins.find? e.1 = none) (hok : (scopedLoad s ps).2 = true)
    (hb : ∀ e ∈ ps, s2.plugins.find? e.1 = (scopedLoad s ps).1.plugins.find? e.1) :
    (∀ e ∈ ps, ∃ h, e.2 = some h ∧ (scopedLoad s ps).1.plugins.find? e.1 = some h) ∧
    ∃ s3, scopedLeave s2 (ps.map (fun e => (e.1, true))) = some s3 ∧
      (∀ e ∈ ps, s3.plugins.find? e.1 = s.plugins.find? e.1) ∧
      ∀ q, (∀ e ∈ ps, e.1 ≠ q) → s3.plugins.find? q = s2.plugins.find? q := by
  have hl := C72_scoped_load_ok ps s hok
  have hm : (ps.map (fun e => (e.1, true))).map Prod.fst = ps.map Prod.fst := by
    rw [List.map_map]; rfl
  refine ⟨?_, ?_⟩
  · clear hb hm hl
    induction ps generalizing s with
    | nil => simp
    | cons e ps ih =>
      obtain ⟨p, o⟩ := e
      have hp : s.plugins.find? p = none := hf _ (List.mem_cons_self ..)
      cases o with
      | none => simp [scopedLoad, load, hp] at hok
      | some x =>
        simp only [scopedLoad, load, hp] at hok ⊢
        have hn' := List.nodup_cons.mp (show (p :: ps.map Prod.fst).Nodup from hn)
        intro e he
        rcases List.mem_cons.mp he with rfl | he
        · exact ⟨x, rfl, scopedLoad_keeps ps _ _ _ (by simp [AMap.find?_insert])⟩
        · refine ih _ hn'.2 ?_ hok e he
          intro e' he'
          simp only [AMap.find?_insert]
          have : e'.1 ≠ p := fun h => hn'.1 (h ▸ List.mem_map_of_mem he')
          simpa [this] using hf e' (List.mem_cons_of_mem _ he')
  · obtain ⟨s3, h3⟩ := (C72_leave (ps.map (fun e => (e.1, true))) s2).1.mpr ⟨by rw [hm]; exact hn, by
      intro e he
      obtain ⟨e', he', rfl⟩ := List.mem_map.mp he
      exact ⟨by rw [hb e' he']; exact hl _ (List.mem_map_of_mem he'), rfl⟩⟩
    have h4 := (C72_leave _ s2).2 s3 h3
    rw [hm] at h4
    refine ⟨s3, h3, ?_, ?_⟩
    · intro e he
      rw [h4, if_pos (List.mem_map_of_mem he), hf e he]
    · intro q hq
      rw [h4, if_neg]
      rintro hq'
      obtain ⟨e, he, h⟩ := List.mem_map.mp hq'
      exact hq e he h

example : ([("p".toList, some 1), ("q".toList, some 2)].map (Prod.fst (β := Option Nat))).Nodup ∧
    (scopedLoad St.init [("p".toList, some 1), ("q".toList, some 2)]).2 = true := by decide

/-- C72, negation. A guard for a plugin that is loaded already loads nothing, and unloads the plugin when it is
    destroyed: the plugin somebody else loaded is gone. -/
theorem C72_negation_already_loaded (s : St) (p : Str) (h : Nat) (hp : s.plugins.find? p = some h) (o : Option Nat) :
    scopedLoad s [(p, o)] = (s, true) ∧
    ∃ s', scopedLeave s [(p, true)] = some s' ∧ s'.plugins.find? p = none := by
  refine ⟨by simp [scopedLoad, load, hp], ?_⟩
  obtain ⟨s', hs⟩ := (C72_leave [(p, true)] s).1.mpr ⟨by simp, by simp [hp]⟩
  exact ⟨s', hs, by rw [(C72_leave _ s).2 s' hs p]; simp⟩

/-- C72, negation. A guard that lists a plugin twice is constructed without complaint, and ends the program when it is
    destroyed, whatever the system answers: the second unload fails, in a destructor. -/
theorem C72_negation_twice (s : St) (p : Str) (hp : s.plugins.find? p = none) (h : Nat) (o : Option Nat) :
    (scopedLoad s [(p, some h), (p, o)]).2 = true ∧
    ∀ s2 b1 b2, scopedLeave s2 [(p, b1), (p, b2)] = none := by
  refine ⟨by simp [scopedLoad, load, hp, AMap.find?_insert], ?_⟩
  intro s2 b1 b2
  rcases hs : scopedLeave s2 [(p, b1), (p, b2)] with _ | s'
  · rfl
  have := ((C72_leave [(p, b1), (p, b2)] s2).1.mp ⟨s', hs⟩).1
  simp at this

/-- C72, negation, in general: when a plugin of the list cannot be loaded, the guard is not constructed, and all plugins
    before it in the list stay loaded. -/
theorem C72_negation_failed_stays (s : St) (pre post : List (Str × Option Nat)) (p : Str)
    (hpre : (scopedLoad s pre).2 = true) (hp : (scopedLoad s pre).1.plugins.find? p = none) :
    scopedLoad s (pre ++ (p, none) :: post) = ((scopedLoad s pre).1, false) ∧
    ∀ q ∈ pre.map Prod.fst, (scopedLoad s (pre ++ (p, none) :: post)).1.plugins.find? q ≠ none := by
  have key : scopedLoad s (pre ++ (p, none) :: post) = ((scopedLoad s pre).1, false) := by
    induction pre generalizing s with
    | nil =>
      have : s.plugins.find? p = none := hp
      simp [scopedLoad, load, this]
    | cons e pre ih =>
      obtain ⟨q, o⟩ := e
      cases hq : s.plugins.find? q with
      | some x =>
        simp only [scopedLoad, load, hq] at hpre hp
        simpa [scopedLoad, load, hq] using ih s hpre hp
      | none =>
        cases o with
        | none => simp [scopedLoad, load, hq] at hpre
        | some x =>
          simp only [scopedLoad, load, hq] at hpre hp
          simpa [scopedLoad, load, hq] using ih _ hpre hp
  refine ⟨key, ?_⟩
  rw [key]
  exact C72_scoped_load_ok pre s hpre

example : (scopedLoad St.init [("p".toList, some 1)]).2 = true ∧
    (scopedLoad St.init [("p".toList, some 1)]).1.plugins.find? "q".toList = none := by decide

/-- C72 (partial). When the first plugin of the list cannot be loaded, nothing is loaded. Missing: a later one
    (C72_negation_failed_stays). -/
theorem C72_failed_first_partial (s : St) (post : List (Str × Option Nat)) (p : Str) (hp : s.plugins.find? p = none) :
    scopedLoad s ((p, none) :: post) = (s, false) :=
  (C72_negation_failed_stays s [] post p rfl hp).1

end LM.Plugin
