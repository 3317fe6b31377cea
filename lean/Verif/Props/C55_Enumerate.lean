import Verif.Model.Renderer
import Verif.Model.Bidir
import Mathlib.Data.List.Nodup
/-
  C55: the bidirectional renderers try every strategy (s, t) within the subpath lengths and vertex limits exactly once, and no other.
-/
namespace LM.Render
open LM LM.Path

theorem nodup_flatMap_pairs (f : ℕ → List ℕ) (h : ∀ s, (f s).Nodup) : ∀ l : List ℕ, l.Nodup → (l.flatMap (fun s => (f s).map (fun t => (s, t)))).Nodup
  | [], _ => List.nodup_nil
  | s :: l, hl => by
    rw [List.flatMap_cons, List.nodup_append]
    refine ⟨(h s).map (fun a b hab => (Prod.mk.inj hab).2), nodup_flatMap_pairs f h l (List.nodup_cons.mp hl).2, ?_⟩
    intro a ha b hb hab
    obtain ⟨t, _, rfl⟩ := List.mem_map.mp ha
    obtain ⟨s', hs', hb⟩ := List.mem_flatMap.mp hb
    obtain ⟨t', _, rfl⟩ := List.mem_map.mp hb
    cases hab
    exact (List.nodup_cons.mp hl).1 hs'

/-- C55. renderer::bdpt and renderer::bdptopt: for all subpath lengths and vertex limits, the pair (s, t) is tried iff s and t are within the subpaths and s + t within the limits, and no pair is tried twice. -/
theorem C55_bdpt (minVerts maxVerts : ℤ) (nL nE : ℕ) :
    (∀ s t, (s, t) ∈ bdptPairs minVerts maxVerts nL nE ↔ s ≤ nL ∧ t ≤ nE ∧ minVerts ≤ (s : ℤ) + t ∧ (s : ℤ) + t ≤ maxVerts) ∧ (bdptPairs minVerts maxVerts nL nE).Nodup := by
  constructor
  · intro s t
    simp only [bdptPairs, List.mem_flatMap, List.mem_map, List.mem_filter, List.mem_range, decide_eq_true_eq, Prod.mk.injEq]
    constructor
    · rintro ⟨s', hs, t', ⟨ht, hc⟩, rfl, rfl⟩
      push Not at hc
      refine ⟨by omega, by omega, ?_, ?_⟩ <;> (have := hc.1; have := hc.2; push_cast at *; omega)
    · rintro ⟨h1, h2, h3, h4⟩
      exact ⟨s, by omega, t, ⟨by omega, by push_cast; omega⟩, rfl, rfl⟩
  · exact nodup_flatMap_pairs (fun s => (List.range (nE + 1)).filter (fun t : ℕ => ¬ (((s + t : ℕ) : ℤ) < minVerts ∨ maxVerts < ((s + t : ℕ) : ℤ)))) (fun s => List.nodup_range.filter _) _ List.nodup_range

/-- C55. renderer::pt_naive_path tries (0, t) exactly for the t ≥ 2 within the eye subpath and the limits, once each. -/
theorem C55_pt_naive (minVerts maxVerts : ℤ) (nE : ℕ) :
    (∀ p, p ∈ ptNaivePairs minVerts maxVerts nE ↔ p.1 = 0 ∧ 2 ≤ p.2 ∧ p.2 ≤ nE ∧ minVerts ≤ p.2 ∧ (p.2 : ℤ) ≤ maxVerts) ∧ (ptNaivePairs minVerts maxVerts nE).Nodup := by
  constructor
  · rintro ⟨s, t⟩
    simp only [ptNaivePairs, List.mem_map, List.mem_filter, List.mem_range, decide_eq_true_eq, Prod.mk.injEq]
    constructor
    · rintro ⟨t', ⟨ht, h2, hc⟩, rfl, rfl⟩
      push Not at hc
      exact ⟨rfl, h2, by omega, hc.1, hc.2⟩
    · rintro ⟨rfl, h1, h2, h3, h4⟩
      exact ⟨t, ⟨by omega, h1, by omega⟩, rfl, rfl⟩
  · exact (List.nodup_range.filter _).map (fun a b h => (Prod.mk.inj h).2)

theorem ptNeePair_sum (nL nE : ℕ) (spec : ℕ → Bool) (n : ℕ) (hn : 2 ≤ n) (p : ℕ × ℕ) (h : ptNeePair nL nE spec n = some p) : p.1 + p.2 = n := by
  unfold ptNeePair at h
  split_ifs at h with h1 h2
  · dsimp only at h
    split_ifs at h
    simp only [Option.some.injEq] at h
    subst h
    dsimp only
    omega
  · dsimp only at h
    split_ifs at h
    simp only [Option.some.injEq] at h
    subst h
    dsimp only
    omega

theorem nodup_filterMap_sum (f : ℕ → Option (ℕ × ℕ)) (l : List ℕ) (hl : l.Nodup) (hf : ∀ n ∈ l, ∀ p, f n = some p → p.1 + p.2 = n) : ((l.filterMap f).map (fun p => p.1 + p.2)).Nodup := by
  induction l with
  | nil => simp
  | cons a l ih =>
    rw [List.nodup_cons] at hl
    have ih' := ih hl.2 (fun n hn => hf n (List.mem_cons_of_mem _ hn))
    cases h : f a with
    | none => rw [List.filterMap_cons_none h]; exact ih'
    | some p =>
      rw [List.filterMap_cons_some h, List.map_cons, List.nodup_cons]
      refine ⟨fun hm => ?_, ih'⟩
      obtain ⟨q, hq, e⟩ := List.mem_map.mp hm
      obtain ⟨n, hn, hfn⟩ := List.mem_filterMap.mp hq
      have h1 := hf a (by simp) p h
      have h2 := hf n (List.mem_cons_of_mem _ hn) q hfn
      exact hl.1 (by have : a = n := by omega
                     rwa [this])

/-- C55. renderer::pt_nee_path (with at least one light vertex): each number of vertices n within the limits is tried by exactly one strategy if the subpaths have the vertices: (0, n) if the eye vertex n - 2
    is specular, else (1, n - 1); the choice of one of these pairs never tries the same number of vertices twice. -/
theorem C55_pt_nee (minVerts maxVerts : ℤ) (nL nE : ℕ) (hL : 1 ≤ nL) (spec : ℕ → Bool) :
    (∀ s t, (s, t) ∈ ptNeePairs minVerts maxVerts nL nE spec ↔
      2 ≤ s + t ∧ t ≤ nE ∧ minVerts ≤ (s : ℤ) + t ∧ (s : ℤ) + t ≤ maxVerts ∧ s = if spec (s + t - 2) then 0 else 1) ∧
    ((ptNeePairs minVerts maxVerts nL nE spec).map (fun p => p.1 + p.2)).Nodup := by
  constructor
  · intro s t
    simp only [ptNeePairs, List.mem_filterMap, List.mem_filter, List.mem_range, decide_eq_true_eq]
    constructor
    · rintro ⟨n, ⟨hn, h2, hc⟩, hp⟩
      have hs := ptNeePair_sum nL nE spec n h2 _ hp
      dsimp only at hs
      unfold ptNeePair at hp
      push Not at hc
      by_cases hb : spec (n - 2) = true
      · simp only [hb, if_true] at hp
        split_ifs at hp with h1 h3
        simp only [Option.some.injEq, Prod.mk.injEq] at hp
        obtain ⟨rfl, rfl⟩ := hp
        refine ⟨by omega, by omega, by push_cast; omega, by push_cast; omega, ?_⟩
        rw [show 0 + n - 2 = n - 2 by omega, hb]; rfl
      · simp only [hb, Bool.false_eq_true, if_false] at hp
        split_ifs at hp with h1
        simp only [Option.some.injEq, Prod.mk.injEq] at hp
        obtain ⟨rfl, rfl⟩ := hp
        refine ⟨by omega, by omega, by push_cast; omega, by push_cast; omega, ?_⟩
        rw [show 1 + (n - 1) - 2 = n - 2 by omega, if_neg hb]
    · rintro ⟨h1, h2, h3, h4, h5⟩
      refine ⟨s + t, ⟨by split_ifs at h5 <;> omega, h1, by push_cast; omega⟩, ?_⟩
      unfold ptNeePair
      by_cases hb : spec (s + t - 2) = true
      · rw [if_pos hb] at h5
        subst h5
        rw [if_neg (by omega)]
        simp only [hb, if_true]
        rw [if_neg (by omega)]
        simp
      · rw [if_neg hb] at h5
        subst h5
        rw [if_neg (by omega)]
        simp only [hb, Bool.false_eq_true, if_false]
        rw [if_neg (by omega), show 1 + t - 1 = t by omega]
  · refine nodup_filterMap_sum _ _ (List.nodup_range.filter _) ?_
    intro n hn p hp
    rw [List.mem_filter, decide_eq_true_eq] at hn
    exact ptNeePair_sum nL nE spec n hn.2.1 p hp

/-- C55. renderer::lt_nee_path (with a camera vertex): exactly the pairs (s, 1) with s ≥ 1 within the light subpath and s + 1 within the limits, once each. -/
theorem C55_lt_nee (minVerts maxVerts : ℤ) (nL nE : ℕ) (hE : 1 ≤ nE) :
    (∀ s t, (s, t) ∈ ltNeePairs minVerts maxVerts nL nE ↔ t = 1 ∧ 1 ≤ s ∧ s ≤ nL ∧ minVerts ≤ (s : ℤ) + t ∧ (s : ℤ) + t ≤ maxVerts) ∧
    (ltNeePairs minVerts maxVerts nL nE).Nodup := by
  constructor
  · intro s t
    simp only [ltNeePairs, List.mem_filterMap, List.mem_filter, List.mem_range, decide_eq_true_eq]
    constructor
    · rintro ⟨n, ⟨hn, h2, hc⟩, hp⟩
      push Not at hc
      split_ifs at hp with h1
      simp only [Option.some.injEq, Prod.mk.injEq] at hp
      obtain ⟨rfl, rfl⟩ := hp
      exact ⟨rfl, by omega, by omega, by push_cast; omega, by push_cast; omega⟩
    · rintro ⟨rfl, h1, h2, h3, h4⟩
      refine ⟨s + 1, ⟨by omega, by omega, by push_cast; omega⟩, ?_⟩
      rw [if_neg (by omega)]
      simp
  · refine List.Nodup.of_map (fun p : ℕ × ℕ => p.1 + p.2) (nodup_filterMap_sum _ _ (List.nodup_range.filter _) ?_)
    intro n hn p hp
    rw [List.mem_filter, decide_eq_true_eq] at hn
    split_ifs at hp
    simp only [Option.some.injEq] at hp
    subst hp
    dsimp only
    omega

/-- The limit min_verts is not checked by construct: with a limit of 0 or less the pair (0, 0) is tried, which connect_subpaths does not define. With min_verts ≥ 1 it is not. -/
theorem C55_boundary_min_verts (minVerts maxVerts : ℤ) (W : World) (vis : SI → SI → Bool) (L E : List Vert) :
    ((0, 0) ∈ bdptPairs minVerts maxVerts L.length E.length ↔ minVerts ≤ 0 ∧ 0 ≤ maxVerts) ∧ (match connect W vis L E 0 0 with | .undef => True | _ => False) := by
  refine ⟨?_, by simp [connect]⟩
  rw [(C55_bdpt minVerts maxVerts L.length E.length).1]
  simp

/-- Non-vacuity: subpaths of 2 and 3 vertices, limits 3 to 4. -/
example : bdptPairs 3 4 2 3 = [(0, 3), (1, 2), (1, 3), (2, 1), (2, 2)] ∧ ptNaivePairs 2 10 3 = [(0, 2), (0, 3)] ∧
    ptNeePairs 2 10 1 3 (fun i => i = 1) = [(1, 1), (0, 3), (1, 3)] ∧ ltNeePairs 2 10 2 1 = [(1, 1), (2, 1)] := by decide

end LM.Render
