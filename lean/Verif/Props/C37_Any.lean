import Verif.Props.C35_Intersect
namespace LM.Bvh
open LM LM.Bound

/-! ### C37, trees of any size and depth: a query either returns the closest hit or exceeds the traversal stack -/

theorem visit_any {nodes trs idx} (hm : Made trs) {i : ℕ} {L : List ℕ} (hh : Holds nodes idx trs i L) (r : Ray) (tmin tmax0 : ℚ) :
    ∀ (rest : List ℕ) (best : Option (Hit × ℕ)) (tmax : ℚ) (D : List ℕ), Acc trs idx r tmin tmax0 best tmax D →
      (∃ best' tmax' D', Steps nodes trs idx r tmin ⟨i :: rest, best, tmax⟩ ⟨rest, best', tmax'⟩ ∧ Acc trs idx r tmin tmax0 best' tmax' D' ∧ D'.Perm (D ++ L)) ∨
      (∃ t, Steps nodes trs idx r tmin ⟨i :: rest, best, tmax⟩ t ∧ tstep nodes trs idx r tmin t = .overflow) := by
  have miss : ∀ (i : ℕ) (L : List ℕ), (∀ k ∈ L, Cov trs (nodes i).b k) → ∀ rest best tmax D, Acc trs idx r tmin tmax0 best tmax D →
      isect (nodes i).b r (.fin tmin) (.fin tmax) = false →
      ∃ best' tmax' D', Steps nodes trs idx r tmin ⟨i :: rest, best, tmax⟩ ⟨rest, best', tmax'⟩ ∧ Acc trs idx r tmin tmax0 best' tmax' D' ∧ D'.Perm (D ++ L) := by
    intro i L hc rest best tmax D ha hf
    refine ⟨best, tmax, D ++ L, .cons _ ⟨rest, best, tmax⟩ _ (by simp [tstep, hf]) (.refl _), ?_, List.Perm.refl _⟩
    apply Acc_skip L ha
    intro k hk
    cases hit : (trs k).intersect r tmin tmax with
    | none => rfl
    | some h =>
      obtain ⟨p1, p2, p3, he⟩ := hm k
      have hcov := hc k hk
      unfold Cov at hcov
      rw [he] at hit hcov
      rw [hit_isect p1 p2 p3 _ r tmin tmax h hcov hit] at hf
      cases hf
  induction hh with
  | leaf i hl hne hc =>
    intro rest best tmax D ha
    left
    cases hf : isect (nodes i).b r (.fin tmin) (.fin tmax) with
    | false => exact miss i _ hc rest best tmax D ha hf
    | true =>
      obtain ⟨e1, e2⟩ := leafLoop_spec (List.range' (nodes i).s ((nodes i).e - (nodes i).s)) ⟨rest, best, tmax⟩ D ha
      refine ⟨_, _, _, .cons _ (leafLoop trs idx r tmin ⟨rest, best, tmax⟩ (List.range' (nodes i).s ((nodes i).e - (nodes i).s))) _ (by simp [tstep, hf, hl]) ?_, e2, List.Perm.refl _⟩
      have : leafLoop trs idx r tmin ⟨rest, best, tmax⟩ (List.range' (nodes i).s ((nodes i).e - (nodes i).s)) =
          ⟨rest, (leafLoop trs idx r tmin ⟨rest, best, tmax⟩ (List.range' (nodes i).s ((nodes i).e - (nodes i).s))).best,
            (leafLoop trs idx r tmin ⟨rest, best, tmax⟩ (List.range' (nodes i).s ((nodes i).e - (nodes i).s))).tmax⟩ := by
        generalize leafLoop trs idx r tmin ⟨rest, best, tmax⟩ (List.range' (nodes i).s ((nodes i).e - (nodes i).s)) = x at e1
        cases x; simp only at e1; rw [e1]
      rw [← this]
      exact .refl _
  | inner i L1 L2 hl h1 h2 hc ih1 ih2 =>
    intro rest best tmax D ha
    cases hf : isect (nodes i).b r (.fin tmin) (.fin tmax) with
    | false => exact .inl (miss i _ hc rest best tmax D ha hf)
    | true =>
      by_cases hcap : rest.length + 2 ≤ cap
      · have st : tstep nodes trs idx r tmin ⟨i :: rest, best, tmax⟩ = .next ⟨(nodes i).c2 :: (nodes i).c1 :: rest, best, tmax⟩ := by
          simp [tstep, hf, hl, hcap]
        rcases ih2 ((nodes i).c1 :: rest) best tmax D ha with ⟨b2, t2, D2, s2, a2, p2⟩ | ⟨t, s2, o2⟩
        · rcases ih1 rest b2 t2 D2 a2 with ⟨b1, t1, D1, s1, a1, p1⟩ | ⟨t, s1, o1⟩
          · refine .inl ⟨b1, t1, D1, .cons _ _ _ st (s2.trans s1), a1, p1.trans ((p2.append_right L1).trans ?_)⟩
            rw [List.append_assoc]
            exact List.perm_append_comm.append_left D
          · exact .inr ⟨t, .cons _ _ _ st (s2.trans s1), o1⟩
        · exact .inr ⟨t, .cons _ _ _ st s2, o2⟩
      · exact .inr ⟨_, .refl _, by simp [tstep, hf, hl, hcap]⟩

theorem trun_of_steps_overflow {nodes trs idx r tmin s t} (h : Steps nodes trs idx r tmin s t) (ho : tstep nodes trs idx r tmin t = .overflow) :
    ∃ fuel, trun nodes trs idx r tmin fuel s = some .overflow := by
  induction h with
  | refl s => exact ⟨1, by simp [trun, ho]⟩
  | cons s t u h _ ih =>
    obtain ⟨fuel, hfuel⟩ := ih ho
    exact ⟨fuel + 1, by simp [trun, h, hfuel]⟩

theorem trun_unique {nodes trs idx r tmin} {a b : ℕ} {s : TSt} {o o' : TOut} (h : trun nodes trs idx r tmin a s = some o) (h' : trun nodes trs idx r tmin b s = some o') : o = o' := by
  rcases Nat.le_total a b with hab | hab
  · rw [trun_mono _ _ hab _ _ h] at h'; exact Option.some.inj h'
  · rw [trun_mono _ _ hab _ _ h'] at h; exact (Option.some.inj h).symm

theorem query_any (nodes : ℕ → Node) (idx : ℕ → ℕ) (trs : ℕ → Tri) (hm : Made trs) (L : List ℕ) (hh : Holds nodes idx trs 0 L) (r : Ray) (tmin tmax : ℚ) :
    ∃ fuel, (∃ st, trun nodes trs idx r tmin fuel (TSt.init tmax) = some (.finished st) ∧ IsClosest trs L r tmin tmax (st.best.map (fun p => (p.1, idx p.2))) ∧
      (∀ h i, st.best = some (h, i) → st.tmax = h.t)) ∨ trun nodes trs idx r tmin fuel (TSt.init tmax) = some .overflow := by
  have ha : Acc trs idx r tmin tmax none tmax [] := ⟨rfl, fun k hk => absurd hk (by simp)⟩
  rcases visit_any hm hh r tmin tmax [] none tmax [] ha with ⟨best', tmax', D', hs, hacc, hp⟩ | ⟨t, hs, ho⟩
  · obtain ⟨fuel, hf⟩ := trun_of_steps hs ⟨_, rfl, rfl⟩
    refine ⟨fuel, .inl ⟨_, hf, ?_, ?_⟩⟩
    · simp only [List.nil_append] at hp
      unfold Acc at hacc
      split at hacc
      · exact fun k hk => hacc.2 k (hp.mem_iff.mpr hk)
      · exact ⟨hp.mem_iff.mp hacc.2.2.1, hacc.2.2.2.1, fun k hk h' hh' => hacc.2.2.2.2 k (hp.mem_iff.mpr hk) h' hh'⟩
    · intro h i hb
      simp only at hb
      subst hb
      exact hacc.1
  · obtain ⟨fuel, hf⟩ := trun_of_steps_overflow hs ho
    exact ⟨fuel, .inr hf⟩

/-- C37. On every valid BVH over well-formed triangles, of any size and depth: a query that returns, returns the closest hit, the same as testing all triangles one by one. -/
theorem C37_returned_is_closest (nodes : ℕ → Node) (idx : ℕ → ℕ) (trs : ℕ → Tri) (hm : Made trs) (L : List ℕ) (hh : Holds nodes idx trs 0 L) (r : Ray) (tmin tmax : ℚ)
    (fuel : ℕ) (st : TSt) (h : trun nodes trs idx r tmin fuel (TSt.init tmax) = some (.finished st)) :
    IsClosest trs L r tmin tmax (st.best.map (fun p => (p.1, idx p.2))) ∧ (∀ h i, st.best = some (h, i) → st.tmax = h.t) := by
  obtain ⟨f, ⟨st', h1, h2, h3⟩ | ho⟩ := query_any nodes idx trs hm L hh r tmin tmax
  · have := trun_unique h h1
    simp only [TOut.finished.injEq] at this
    subst this
    exact ⟨h2, h3⟩
  · cases trun_unique h ho

/-- C37. Every query on a valid BVH ends: it returns or it exceeds the traversal stack. It never loops. -/
theorem C37_ends (nodes : ℕ → Node) (idx : ℕ → ℕ) (trs : ℕ → Tri) (hm : Made trs) (L : List ℕ) (hh : Holds nodes idx trs 0 L) (r : Ray) (tmin tmax : ℚ) :
    ∃ fuel o, trun nodes trs idx r tmin fuel (TSt.init tmax) = some o ∧ (o = .overflow ∨ ∃ st, o = .finished st) := by
  obtain ⟨f, ⟨st', h1, _⟩ | ho⟩ := query_any nodes idx trs hm L hh r tmin tmax
  · exact ⟨f, _, h1, .inr ⟨_, rfl⟩⟩
  · exact ⟨f, _, ho, .inl rfl⟩

theorem IsClosest.perm {trs : ℕ → Tri} {L L' : List ℕ} {r : Ray} {tmin tmax : ℚ} {o : Option (Hit × ℕ)} (hp : L.Perm L') (h : IsClosest trs L r tmin tmax o) : IsClosest trs L' r tmin tmax o := by
  unfold IsClosest at h ⊢
  split at h
  · exact fun k hk => h k (hp.mem_iff.mpr hk)
  · exact ⟨hp.mem_iff.mp h.1, h.2.1, fun k hk h' hh' => h.2.2 k (hp.mem_iff.mpr hk) h' hh'⟩

/-- C37, building and querying together, any number of triangles: whatever the interleaving of the builder threads, every query against the completed construction that returns,
    returns the closest of the hits of all n triangles. -/
theorem C37_build_query (trs : ℕ → Tri) (hm : Made trs) (n k : ℕ) (hn : 1 ≤ n) (s : St) (hr : Reach trs n k s) (hne : s.ths ≠ []) (hex : ∀ t ∈ s.ths, t = Stage.exited)
    (r : Ray) (tmin tmax : ℚ) (fuel : ℕ) (st : TSt) (h : trun s.nodes trs s.idx r tmin fuel (TSt.init tmax) = some (.finished st)) :
    IsClosest trs (List.range n) r tmin tmax (st.best.map (fun p => (p.1, s.idx p.2))) ∧ (∀ h i, st.best = some (h, i) → st.tmax = h.t) := by
  obtain ⟨L, hh, hp⟩ := C36_built trs n k hn s hr hne hex
  obtain ⟨h1, h2⟩ := C37_returned_is_closest s.nodes s.idx trs hm L hh r tmin tmax fuel st h
  exact ⟨h1.perm hp, h2⟩

/-- The hypotheses are met beyond the bound of `C37_closest_partial`: the chain of `C38_negation_overflow` over 201 triangles, asked with a ray that misses, returns. -/
example : ∃ fuel st, trun (chainNode 200) (fun _ => chainTri) (fun i => i) ⟨⟨5, 5, 1⟩, ⟨0, 0, -1⟩, (false, false, false)⟩ 0 fuel (TSt.init 2) = some (.finished st) ∧
    Holds (chainNode 200) (fun i => i) (fun _ => chainTri) 0 (List.range 201) ∧ st.best = none := by
  have hf : isect (chainNode 200 0).b ⟨⟨5, 5, 1⟩, ⟨0, 0, -1⟩, (false, false, false)⟩ (.fin 0) (.fin 2) = false := by
    decide +kernel
  refine ⟨2, ⟨[], none, 2⟩, ?_, (C38_negation_overflow 200 (by norm_num)).1, rfl⟩
  simp [trun, tstep, TSt.init, hf]

end LM.Bvh
