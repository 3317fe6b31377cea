import Verif.Model.Scheduler
import Verif.Props.C17_Parallel
import Mathlib.Data.List.ProdSigma
import Mathlib.Tactic.NormNum
namespace LM.Scheduler
open LM.Parallel

/-- The environment runs the team to the end of every parallel loop with `n` iterations (whatever the counters). -/
def Env.Complete (env : Env) (n : Nat) : Prop :=
  0 < env.threads ∧ (∀ k, ∀ t ∈ env.sched k, t < env.threads) ∧
  ∀ k count, Done ⟨n, env.threads, env.interval, fun _ => false⟩ (loop env k count n)

theorem loop_calls (env : Env) (k : Nat) (count : Nat → Nat) (n : Nat) (h : env.Complete n) : (loop env k count n).calls.Perm (List.range n) :=
  (C17_each_index_once ⟨n, env.threads, env.interval, fun _ => false⟩ count (env.sched k) (h.2.1 k) h.1 (fun _ _ => rfl) (h.2.2 k count)).1

/-- C20. scheduler::spp::sample calls `process` exactly once for every pixel and every sample index below spp, nothing else, and returns spp. -/
theorem C20_spp_sample (env : Env) (count : Nat → Nat) (numPixels spp : Nat) (h : env.Complete (numPixels * spp)) :
    (sppSample env count numPixels spp).1 = spp ∧
    (sppSample env count numPixels spp).2.Perm ((List.range numPixels) ×ˢ (List.range spp)) := by
  refine ⟨rfl, ?_⟩
  have h1 := (loop_calls env 0 count _ h).map (fun index => (index / spp, index % spp))
  refine h1.trans ?_
  rw [List.perm_ext_iff_of_nodup]
  · rintro ⟨p, q⟩
    simp only [List.mem_map, List.mem_range, Prod.mk.injEq, List.mem_product]
    constructor
    · rintro ⟨i, hi, rfl, rfl⟩
      have hs : 0 < spp := by
        rcases Nat.eq_zero_or_pos spp with rfl | hs
        · simp at hi
        · exact hs
      exact ⟨(Nat.div_lt_iff_lt_mul hs).mpr hi, Nat.mod_lt _ hs⟩
    · rintro ⟨hp, hq⟩
      refine ⟨p * spp + q, ?_, ?_, ?_⟩
      · calc p * spp + q < p * spp + spp := by omega
          _ = (p + 1) * spp := by rw [Nat.succ_mul]
          _ ≤ numPixels * spp := Nat.mul_le_mul_right _ hp
      · rw [Nat.mul_comm, Nat.mul_add_div (by omega), Nat.div_eq_of_lt hq, Nat.add_zero]
      · rw [Nat.mul_comm, Nat.mul_add_mod, Nat.mod_eq_of_lt hq]
  · apply List.Nodup.map_on _ List.nodup_range
    intro a _ b _ hab
    simp only [Prod.mk.injEq] at hab
    rw [← Nat.div_add_mod a spp, ← Nat.div_add_mod b spp, hab.1, hab.2]
  · exact List.Nodup.product List.nodup_range List.nodup_range

/-- C20. scheduler::spi::sample calls `process` exactly once for every sample index below the configured number, and returns that number. -/
theorem C20_spi_sample (env : Env) (count : Nat → Nat) (n : Nat) (h : env.Complete n) :
    (spiSample env count n).1 = n ∧ (spiSample env count n).2.Perm ((List.range n).map (fun i => (0, i))) :=
  ⟨rfl, (loop_calls env 0 count n h).map _⟩

/-- Time is up when the k-th round ends. -/
def Env.Over (env : Env) (limit : ℚ) (k : Nat) : Prop := (env.elapsedMs k : ℚ) / 1000 > limit

theorem sppTime_spec (env : Env) (limit : ℚ) (n : Nat) (h : env.Complete n) : ∀ fuel k count spp acc r calls,
    sppTime env limit n fuel k count spp acc = some (r, calls) →
    ∃ parts : List (List (Nat × Nat)), calls = acc ++ parts.flatten ∧ r = spp + parts.length ∧ 1 ≤ parts.length ∧
      (∀ j (hj : j < parts.length), parts[j].Perm ((List.range n).map (fun i => (i, spp + j)))) ∧
      env.Over limit (k + parts.length - 1) ∧ ∀ j, j + 1 < parts.length → ¬ env.Over limit (k + j) := by
  intro fuel
  induction fuel with
  | zero => intro k count spp acc r calls h; simp [sppTime] at h
  | succ fuel ih =>
    intro k count spp acc r calls heq
    simp only [sppTime] at heq
    split at heq
    · next ht =>
      simp only [Option.some.injEq, Prod.mk.injEq] at heq
      obtain ⟨rfl, rfl⟩ := heq
      refine ⟨[(loop env k count n).calls.map (fun index => (index, spp))], by simp, rfl, by simp, ?_, by simpa [Env.Over] using ht, ?_⟩
      · intro j hj
        simp only [List.length_singleton, Nat.lt_one_iff] at hj
        subst hj
        exact (loop_calls env k count n h).map _
      · intro j hj; simp at hj
    · next ht =>
      obtain ⟨parts, h1, h2, h3, h4, h5, h6⟩ := ih _ _ _ _ _ _ heq
      refine ⟨(loop env k count n).calls.map (fun index => (index, spp)) :: parts, by simp [h1], by simp; omega, by simp, ?_, ?_, ?_⟩
      · intro j hj
        cases j with
        | zero => exact (loop_calls env k count n h).map _
        | succ j =>
          have := h4 j (by simpa using hj)
          simpa [Nat.add_assoc, Nat.add_comm 1 j] using this
      · have e : k + (parts.length + 1) - 1 = k + 1 + parts.length - 1 := by omega
        simpa [e] using h5
      · intro j hj
        cases j with
        | zero => exact ht
        | succ j =>
          have := h6 j (by simpa using hj)
          simpa [Nat.add_assoc, Nat.add_comm 1 j] using this

/-- C21. scheduler::spp::time: for every clock and every interleaving, if the scheduler returns r then it made r ≥ 1 complete rounds one after the other,
    round j calls `process` exactly once for every pixel with sample index j, and r is the first round at whose end the limit is exceeded. -/
theorem C21_spp_time (env : Env) (limit : ℚ) (n fuel : Nat) (count : Nat → Nat) (h : env.Complete n) (r : Nat) (calls : List (Nat × Nat))
    (hr : sppTime env limit n fuel 0 count 0 [] = some (r, calls)) :
    ∃ parts : List (List (Nat × Nat)), calls = parts.flatten ∧ parts.length = r ∧ 1 ≤ r ∧
      (∀ j (hj : j < parts.length), parts[j].Perm ((List.range n).map (fun pixel => (pixel, j)))) ∧
      env.Over limit (r - 1) ∧ ∀ j, j + 1 < r → ¬ env.Over limit j := by
  obtain ⟨parts, h1, h2, h3, h4, h5, h6⟩ := sppTime_spec env limit n h fuel 0 count 0 [] r calls hr
  simp only [Nat.zero_add] at h2 h4 h5 h6
  subst h2
  exact ⟨parts, by simpa using h1, rfl, h3, h4, h5, h6⟩

theorem spiTime_spec (env : Env) (limit : ℚ) (n : Nat) (h : env.Complete n) : ∀ fuel k count processed acc r calls,
    spiTime env limit n fuel k count processed acc = some (r, calls) →
    ∃ parts : List (List (Nat × Nat)), calls = acc ++ parts.flatten ∧ r = processed + parts.length * n ∧ 1 ≤ parts.length ∧
      (∀ j (hj : j < parts.length), parts[j].Perm ((List.range n).map (fun i => (0, processed + j * n + i)))) ∧
      env.Over limit (k + parts.length - 1) ∧ ∀ j, j + 1 < parts.length → ¬ env.Over limit (k + j) := by
  intro fuel
  induction fuel with
  | zero => intro k count processed acc r calls h; simp [spiTime] at h
  | succ fuel ih =>
    intro k count processed acc r calls heq
    simp only [spiTime] at heq
    split at heq
    · next ht =>
      simp only [Option.some.injEq, Prod.mk.injEq] at heq
      obtain ⟨rfl, rfl⟩ := heq
      refine ⟨[(loop env k count n).calls.map (fun index => (0, processed + index))], by simp, by simp, by simp, ?_, by simpa [Env.Over] using ht, ?_⟩
      · intro j hj
        simp only [List.length_singleton, Nat.lt_one_iff] at hj
        subst hj
        simpa using (loop_calls env k count n h).map (fun index => (0, processed + index))
      · intro j hj; simp at hj
    · next ht =>
      obtain ⟨parts, h1, h2, h3, h4, h5, h6⟩ := ih _ _ _ _ _ _ heq
      refine ⟨(loop env k count n).calls.map (fun index => (0, processed + index)) :: parts, by simp [h1], ?_, by simp, ?_, ?_, ?_⟩
      · rw [h2, List.length_cons, Nat.succ_mul]; omega
      · intro j hj
        cases j with
        | zero => simpa using (loop_calls env k count n h).map (fun index => (0, processed + index))
        | succ j =>
          have := h4 j (by simpa using hj)
          have e : processed + n + j * n = processed + (j + 1) * n := by rw [Nat.succ_mul]; omega
          rw [e] at this
          exact this
      · have e : k + (parts.length + 1) - 1 = k + 1 + parts.length - 1 := by omega
        simpa [e] using h5
      · intro j hj
        cases j with
        | zero => exact ht
        | succ j =>
          have := h6 j (by simpa using hj)
          simpa [Nat.add_assoc, Nat.add_comm 1 j] using this

/-- C21. scheduler::spi::time: if it returns, it made m ≥ 1 complete rounds, round j calls `process` once for each of the `samplesPerIter` consecutive
    sample indices from j·samplesPerIter on, the result is the number of samples processed, and m is the first round ending past the limit. -/
theorem C21_spi_time (env : Env) (limit : ℚ) (n fuel : Nat) (count : Nat → Nat) (h : env.Complete n) (r : Nat) (calls : List (Nat × Nat))
    (hr : spiTime env limit n fuel 0 count 0 [] = some (r, calls)) :
    ∃ parts : List (List (Nat × Nat)), calls = parts.flatten ∧ r = parts.length * n ∧ calls.length = r ∧ 1 ≤ parts.length ∧
      (∀ j (hj : j < parts.length), parts[j].Perm ((List.range n).map (fun i => (0, j * n + i)))) ∧
      env.Over limit (parts.length - 1) ∧ ∀ j, j + 1 < parts.length → ¬ env.Over limit j := by
  obtain ⟨parts, h1, h2, h3, h4, h5, h6⟩ := spiTime_spec env limit n h fuel 0 count 0 [] r calls hr
  simp only [Nat.zero_add] at h2 h4 h5 h6
  refine ⟨parts, by simpa using h1, h2, ?_, h3, h4, h5, h6⟩
  rw [h1, h2]
  simp only [List.nil_append, List.length_flatten]
  have hl : ∀ x ∈ parts.map List.length, x = n := by
    intro x hx
    obtain ⟨p, hp, rfl⟩ := List.mem_map.mp hx
    obtain ⟨j, hj, rfl⟩ := List.mem_iff_getElem.mp hp
    simpa using (h4 j hj).length_eq
  rw [List.sum_eq_card_nsmul _ n hl]
  simp

/-- C21. If the clock passes the limit at the end of some round, the scheduler returns. -/
theorem C21_returns (env : Env) (limit : ℚ) (n : Nat) (m : Nat) (hm : env.Over limit m) (count : Nat → Nat) :
    (∃ fuel res, sppTime env limit n fuel 0 count 0 [] = some res) ∧ ∃ fuel res, spiTime env limit n fuel 0 count 0 [] = some res := by
  have h1 : ∀ d k count c acc, k + d = m → ∃ res, sppTime env limit n (d + 1) k count c acc = some res := by
    intro d
    induction d with
    | zero =>
      intro k count c acc hk
      have : k = m := by omega
      subst this
      unfold Env.Over at hm
      exact ⟨_, by simp only [sppTime]; rw [if_pos hm]⟩
    | succ d ih =>
      intro k count c acc hk
      rw [sppTime]
      split
      · exact ⟨_, rfl⟩
      · exact ih (k + 1) _ _ _ (by omega)
  have h2 : ∀ d k count c acc, k + d = m → ∃ res, spiTime env limit n (d + 1) k count c acc = some res := by
    intro d
    induction d with
    | zero =>
      intro k count c acc hk
      have : k = m := by omega
      subst this
      unfold Env.Over at hm
      exact ⟨_, by simp only [spiTime]; rw [if_pos hm]⟩
    | succ d ih =>
      intro k count c acc hk
      rw [spiTime]
      split
      · exact ⟨_, rfl⟩
      · exact ih (k + 1) _ _ _ (by omega)
  exact ⟨⟨m + 1, h1 m 0 count 0 [] (by omega)⟩, ⟨m + 1, h2 m 0 count 0 [] (by omega)⟩⟩

/-- Non-vacuity: one thread that runs long enough for 2 iterations, clock advancing one second per round. -/
def exEnv : Env := ⟨1, 100, fun _ => List.replicate 11 0, fun k => 1000 * (k + 1)⟩
theorem exEnv_complete : exEnv.Complete 2 := by
  refine ⟨by decide, by intro k t ht; simp [exEnv] at ht; subst ht; decide, ?_⟩
  intro k count t ht
  have : t = 0 := by simp [exEnv] at ht; omega
  subst this
  by_cases h1 : 100 ≤ count 0 + 1
  · simp [loop, run, exEnv, List.replicate, step, init, upd, h1]
  · by_cases h2 : 100 ≤ count 0 + 1 + 1
    · simp [loop, run, exEnv, List.replicate, step, init, upd, h1, h2]
    · simp [loop, run, exEnv, List.replicate, step, init, upd, h1, h2]
example : exEnv.Complete (2 * 1) := exEnv_complete
example : exEnv.Over 2 2 := by norm_num [Env.Over, exEnv]

end LM.Scheduler
