import Verif.Props.C84_Volumes
import Mathlib.Probability.ProductMeasure
/-
  C85: random loops run with an infinite sequence of random numbers. The average over the first n numbers, for all n, gives the expectation over all sequences.
-/
namespace LM.Tracking
open MeasureTheory Set LM LM.Solid LM.Volume LM.Bound
open scoped ENNReal Topology

instance : IsProbabilityMeasure uniform1 := ⟨uniform1_prob⟩

/-- The law of a sequence of independent random numbers, uniform in [0,1). -/
noncomputable def uniforms : Measure (ℕ → ℝ) := Measure.infinitePi fun _ => uniform1

instance : IsProbabilityMeasure uniforms := by unfold uniforms; infer_instance

def consU (x : ℝ × (ℕ → ℝ)) : ℕ → ℝ
  | 0 => x.1
  | n + 1 => x.2 n

theorem measurable_consU : Measurable consU := measurable_pi_iff.mpr fun n => by
  cases n with
  | zero => exact measurable_fst
  | succ n => exact (measurable_pi_apply n).comp measurable_snd

/-- The first number and the rest of a random sequence are independent. -/
theorem uniforms_cons : (uniform1.prod uniforms).map consU = uniforms := by
  classical
  refine Measure.eq_infinitePi _ fun s t ht => ?_
  obtain ⟨N, hN⟩ : ∃ N, s ⊆ Finset.range (N + 1) := ⟨s.sup id, fun x hx => Finset.mem_range.mpr (Nat.lt_succ_of_le (Finset.le_sup (f := id) hx))⟩
  set t' : ℕ → Set ℝ := fun n => if n ∈ s then t n else univ with ht'
  have hm : ∀ n, MeasurableSet (t' n) := fun n => by
    simp only [ht']
    split
    · exact ht n
    · exact MeasurableSet.univ
  have e1 : (s : Set ℕ).pi t = ((Finset.range (N + 1) : Finset ℕ) : Set ℕ).pi t' := by
    ext x
    simp only [Set.mem_pi, ht', Finset.mem_coe]
    constructor
    · intro h n _
      split
      · exact h n ‹_›
      · trivial
    · intro h n hn
      have := h n (hN hn)
      rwa [if_pos hn] at this
  have e2 : consU ⁻¹' ((Finset.range (N + 1) : Finset ℕ) : Set ℕ).pi t' = t' 0 ×ˢ ((Finset.range N : Finset ℕ) : Set ℕ).pi fun n => t' (n + 1) := by
    ext x
    simp only [Set.mem_preimage, Set.mem_pi, Finset.mem_coe, Finset.mem_range, Set.mem_prod]
    constructor
    · exact fun h => ⟨h 0 (Nat.succ_pos N), fun n hn => h (n + 1) (Nat.succ_lt_succ hn)⟩
    · rintro ⟨h0, h1⟩ n hn
      cases n with
      | zero => exact h0
      | succ n => exact h1 n (Nat.lt_of_succ_lt_succ hn)
  have e3 : ∏ n ∈ s, uniform1 (t n) = ∏ n ∈ Finset.range (N + 1), uniform1 (t' n) := by
    rw [← Finset.prod_subset hN (f := fun n => uniform1 (t' n))]
    · exact Finset.prod_congr rfl fun n hn => by simp [ht', hn]
    · intro n _ hn
      simp [ht', hn]
  rw [e1, Measure.map_apply measurable_consU (MeasurableSet.pi (Finset.countable_toSet _) fun n _ => hm n), e2, Measure.prod_prod, e3, Finset.prod_range_succ', mul_comm, uniforms, Measure.infinitePi_pi _ (fun n _ => hm _)]

/-- The first n numbers of a sequence. -/
def firstU (n : ℕ) (s : ℕ → ℝ) : List ℝ := (List.range n).map s

theorem firstU_zero (s : ℕ → ℝ) : firstU 0 s = [] := rfl
theorem firstU_cons (n : ℕ) (u : ℝ) (s : ℕ → ℝ) : firstU (n + 1) (consU (u, s)) = u :: firstU n s := by
  simp only [firstU, List.range_succ_eq_map, List.map_cons, List.map_map]
  rfl
theorem firstU_snoc (n : ℕ) (s : ℕ → ℝ) : firstU (n + 1) s = firstU n s ++ [s n] := by
  simp [firstU, List.range_succ]

/-- The average over the first n numbers, as an average over sequences. -/
theorem mean_uniforms (n : ℕ) : ∀ f : List ℝ → ℝ≥0∞, Measurable (fun s => f (firstU n s)) → ∫⁻ s, f (firstU n s) ∂uniforms = mean n f := by
  induction n with
  | zero =>
    intro f _
    simp [firstU_zero, mean]
  | succ n ih =>
    intro f hf
    have e : ∀ x : ℝ × (ℕ → ℝ), f (firstU (n + 1) (consU x)) = f (x.1 :: firstU n x.2) := fun x => by rw [← firstU_cons]
    have hf' : Measurable fun x : ℝ × (ℕ → ℝ) => f (x.1 :: firstU n x.2) := by
      simp_rw [← e]
      exact hf.comp measurable_consU
    rw [← uniforms_cons, lintegral_map hf measurable_consU]
    simp_rw [e]
    rw [lintegral_prod _ hf'.aemeasurable]
    simp only [mean]
    refine lintegral_congr fun u => ih (fun us => f (u :: us)) (hf'.comp measurable_prodMk_left)

open Classical in
/-- The outcome of a loop that is run with a sequence of random numbers. A loop that never ends gives `more`. -/
noncomputable def runSeq {α : Type} (loop : List ℝ → Track α) (s : ℕ → ℝ) : Track α :=
  if h : ∃ n, loop (firstU n s) ≠ .more then loop (firstU h.choose s) else .more

theorem Steady.stays {α : Type} {loop : List ℝ → Track α} (h : Steady loop) (s : ℕ → ℝ) {n m : ℕ} (hnm : n ≤ m) (hn : loop (firstU n s) ≠ .more) : loop (firstU m s) = loop (firstU n s) := by
  induction m, hnm using Nat.le_induction with
  | base => rfl
  | succ m _ ih =>
    rw [firstU_snoc]
    rcases h (firstU m s) (s m) with h1 | h1
    · rw [ih] at h1; exact absurd h1 hn
    · rw [h1, ih]

theorem Steady.run {α : Type} {loop : List ℝ → Track α} (h : Steady loop) (s : ℕ → ℝ) {n : ℕ} (hn : loop (firstU n s) ≠ .more) : runSeq loop s = loop (firstU n s) := by
  classical
  have hex : ∃ n, loop (firstU n s) ≠ .more := ⟨n, hn⟩
  unfold runSeq
  rw [dif_pos hex]
  rcases le_total hex.choose n with h1 | h1
  · exact (h.stays s h1 hex.choose_spec).symm
  · exact h.stays s h1 hn

theorem Steady.run_tendsto {α : Type} {loop : List ℝ → Track α} (h : Steady loop) (F : α → ℝ≥0∞) (s : ℕ → ℝ) : Filter.Tendsto (fun n => gain F (loop (firstU n s))) Filter.atTop (𝓝 (gain F (runSeq loop s))) := by
  classical
  by_cases hex : ∃ n, loop (firstU n s) ≠ .more
  · obtain ⟨n, hn⟩ := hex
    refine tendsto_const_nhds.congr' ?_
    filter_upwards [Filter.eventually_ge_atTop n] with m hm
    rw [h.run s hn, h.stays s hm hn]
  · have : ∀ n, loop (firstU n s) = .more := fun n => by by_contra hc; exact hex ⟨n, hc⟩
    unfold runSeq
    rw [dif_neg hex]
    simp only [this]
    exact tendsto_const_nhds

/-- The expectation over all sequences of random numbers is the limit of the averages over the runs that need at most n numbers. -/
theorem Expects.lintegral {α : Type} {loop : List ℝ → Track α} (h : Steady loop) {F : α → ℝ≥0∞} {v : ℝ≥0∞} (hv : Expects loop F v) (hm : ∀ n, Measurable fun s => gain F (loop (firstU n s))) :
    ∫⁻ s, gain F (runSeq loop s) ∂uniforms = v := by
  have hmono : ∀ s, Monotone fun n => gain F (loop (firstU n s)) := fun s => monotone_nat_of_le_succ fun n => by
    rw [firstU_snoc]
    rcases h (firstU n s) (s n) with h1 | h1
    · rw [h1]; exact zero_le
    · rw [h1]
  have h1 := lintegral_tendsto_of_tendsto_of_monotone (μ := uniforms) (fun n => (hm n).aemeasurable) (Filter.Eventually.of_forall hmono) (Filter.Eventually.of_forall (h.run_tendsto F))
  simp_rw [mean_uniforms _ (fun us => gain F (loop us)) (hm _)] at h1
  exact tendsto_nhds_unique h1 hv

/-- A loop that ends with probability one has a defined outcome for almost all sequences. -/
theorem ends_ae {α : Type} {loop : List ℝ → Track α} (h : Steady loop) (hv : Expects loop (fun _ => 1) 1) (hm : ∀ n, Measurable fun s => gain (fun _ => 1) (loop (firstU n s))) :
    ∀ᵐ s ∂uniforms, ∃ a, runSeq loop s = .done a := by
  have hi := hv.lintegral h hm
  have hme : Measurable fun s => gain (fun _ => 1) (runSeq loop s) := measurable_of_tendsto_metrizable hm (tendsto_pi_nhds.mpr fun s => h.run_tendsto _ s)
  have hfin := ae_lt_top hme (by rw [hi]; exact ENNReal.one_ne_top)
  have hle : (fun s => gain (fun _ : α => 1) (runSeq loop s)) ≤ᵐ[uniforms] fun _ => 1 := hfin.mono fun s hs => by
    beta_reduce at hs ⊢
    cases e : runSeq loop s <;> simp_all [gain]
  have heq := ae_eq_of_ae_le_of_lintegral_le hle (by rw [hi]; exact ENNReal.one_ne_top) aemeasurable_const (by rw [hi]; simp)
  refine heq.mono fun s hs => ?_
  beta_reduce at hs
  cases e : runSeq loop s with
  | more => rw [e] at hs; simp [gain] at hs
  | undef => rw [e] at hs; simp [gain] at hs
  | done a => exact ⟨a, rfl⟩

end LM.Tracking
