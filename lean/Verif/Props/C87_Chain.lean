import Mathlib.MeasureTheory.Measure.Prod
/-
  C87: lists of points, and integration over all lists of n points.
-/
namespace LM.Chain
open MeasureTheory Set
open scoped ENNReal

variable {V P β : Type} [MeasurableSpace V] [MeasurableSpace P] [MeasurableSpace β]

/-- Lists of n points are tuples of n points. -/
instance listSpace : MeasurableSpace (List V) := ⨅ n, MeasurableSpace.map (fun v : Fin n → V => List.ofFn v) inferInstance

theorem measurableSet_list {s : Set (List V)} : MeasurableSet s ↔ ∀ n, MeasurableSet ((fun v : Fin n → V => List.ofFn v) ⁻¹' s) := by
  rw [show MeasurableSet s ↔ @MeasurableSet _ (⨅ n, MeasurableSpace.map (fun v : Fin n → V => List.ofFn v) inferInstance) s from Iff.rfl, MeasurableSpace.measurableSet_iInf]
  rfl

theorem measurable_ofFn (n : ℕ) : Measurable fun v : Fin n → V => List.ofFn v := fun s hs => measurableSet_list.mp hs n

theorem measurable_list {F : List V → β} (h : ∀ n, Measurable fun v : Fin n → V => F (List.ofFn v)) : Measurable F := fun s hs => measurableSet_list.mpr fun n => h n hs

theorem measurable_length : Measurable (List.length : List V → ℕ) := measurable_list fun n => by simp only [List.length_ofFn]; exact measurable_const

theorem measurable_get (d : V) (i : ℕ) : Measurable fun l : List V => (l[i]?).elim d id := measurable_list fun n => by
  by_cases h : i < n
  · have : (fun v : Fin n → V => ((List.ofFn v)[i]?).elim d id) = fun v => v ⟨i, h⟩ := by funext v; simp [h]
    rw [this]; exact measurable_pi_apply _
  · have : (fun v : Fin n → V => ((List.ofFn v)[i]?).elim d id) = fun _ => d := by funext v; simp [h]
    rw [this]; exact measurable_const

/-- Functions of a parameter and a list are measurable if they are for lists of each length. -/
theorem measurable_prod_list {F : P × List V → β} (h : ∀ n, Measurable fun q : P × (Fin n → V) => F (q.1, List.ofFn q.2)) : Measurable F := by
  rcases isEmpty_or_nonempty V with hV | ⟨⟨d⟩⟩
  · have hn : ∀ l : List V, l = [] := fun l => by cases l with | nil => rfl | cons v l => exact hV.elim v
    have : F = fun q => F (q.1, List.ofFn (fun i : Fin 0 => i.elim0)) := by funext q; rw [List.ofFn_zero, ← hn q.2]
    rw [this]
    exact (h 0).comp (measurable_fst.prodMk measurable_const)
  · intro s hs
    have : F ⁻¹' s = ⋃ n, {q : P × List V | q.2.length = n ∧ (q.1, fun i : Fin n => (q.2[(i : ℕ)]?).elim d id) ∈ (fun q : P × (Fin n → V) => F (q.1, List.ofFn q.2)) ⁻¹' s} := by
      ext ⟨p, l⟩
      simp only [mem_preimage, mem_iUnion, mem_ofPred_eq, exists_eq_left']
      have e : List.ofFn (fun i : Fin l.length => (l[(i : ℕ)]?).elim d id) = l := by
        apply List.ext_getElem
        · simp
        · intro i h1 h2; simp [h2]
      rw [e]
    rw [this]
    refine MeasurableSet.iUnion fun n => MeasurableSet.inter ?_ ?_
    · exact (measurable_length.comp measurable_snd) (measurableSet_singleton n)
    · have hm : Measurable fun q : P × List V => (q.1, fun i : Fin n => (q.2[(i : ℕ)]?).elim d id) := measurable_fst.prodMk (measurable_pi_lambda _ fun i => (measurable_get d i).comp measurable_snd)
      exact hm (h n hs)

theorem measurable_cons : Measurable fun q : V × List V => q.1 :: q.2 := measurable_prod_list fun n => by
  have : (fun q : V × (Fin n → V) => q.1 :: List.ofFn q.2) = fun q => List.ofFn (Fin.cons q.1 q.2 : Fin (n + 1) → V) := by funext q; simp [List.ofFn_succ]
  show Measurable fun q : V × (Fin n → V) => q.1 :: List.ofFn q.2
  rw [this]
  refine (measurable_ofFn (n + 1)).comp (measurable_pi_lambda _ fun i => ?_)
  refine Fin.cases ?_ (fun i => ?_) i
  · simpa using measurable_fst
  · have : Measurable fun q : V × (Fin n → V) => q.2 i := (measurable_pi_apply i).comp measurable_snd
    simpa using this

/-- Measurability by induction on the list. -/
theorem measurable_rec {F : P × List V → β} (h0 : Measurable fun p => F (p, []))
    (h1 : ∀ n, (Measurable fun q : P × (Fin n → V) => F (q.1, List.ofFn q.2)) → Measurable fun q : P × V × (Fin n → V) => F (q.1, q.2.1 :: List.ofFn q.2.2)) : Measurable F := by
  refine measurable_prod_list fun n => ?_
  induction n with
  | zero =>
    have : (fun q : P × (Fin 0 → V) => F (q.1, List.ofFn q.2)) = fun q => F (q.1, []) := by funext q; simp
    rw [this]
    exact h0.comp measurable_fst
  | succ n ih =>
    have : (fun q : P × (Fin (n + 1) → V) => F (q.1, List.ofFn q.2)) = (fun q : P × V × (Fin n → V) => F (q.1, q.2.1 :: List.ofFn q.2.2)) ∘ fun q => (q.1, q.2 0, fun i => q.2 i.succ) := by
      funext q; simp [List.ofFn_succ]
    rw [this]
    exact (h1 n ih).comp (measurable_fst.prodMk (((measurable_pi_apply 0).comp measurable_snd).prodMk (measurable_pi_lambda _ fun i => (measurable_pi_apply _).comp measurable_snd)))

theorem measurable_append : Measurable fun q : List V × List V => q.2 ++ q.1 := by
  refine measurable_rec (F := fun q : List V × List V => q.2 ++ q.1) measurable_id fun n ih => ?_
  exact measurable_cons.comp ((measurable_fst.comp measurable_snd).prodMk (ih.comp (measurable_fst.prodMk (measurable_snd.comp measurable_snd))))

/-- The same without parameter. -/
theorem measurable_rec' {F : List V → β} (h1 : ∀ n, (Measurable fun v : Fin n → V => F (List.ofFn v)) → Measurable fun q : V × (Fin n → V) => F (q.1 :: List.ofFn q.2)) : Measurable F := by
  have := measurable_rec (P := Unit) (F := fun q : Unit × List V => F q.2) (measurable_const (a := F [])) fun n ih => by
    have h := h1 n (ih.comp ((measurable_const (a := ())).prodMk measurable_id))
    exact h.comp measurable_snd
  exact this.comp ((measurable_const (a := ())).prodMk measurable_id)

theorem measurable_reverse : Measurable (List.reverse : List V → List V) := measurable_rec' fun n ih => by
  have h : Measurable fun q : V × (Fin n → V) => ([q.1], (List.ofFn q.2).reverse) := (measurable_cons.comp (measurable_fst.prodMk measurable_const)).prodMk (ih.comp measurable_snd)
  have := measurable_append.comp h
  simpa [Function.comp_def] using this

theorem measurable_take (k : ℕ) : Measurable (List.take k : List V → List V) := by
  induction k with
  | zero => exact (measurable_const (a := ([] : List V)))
  | succ k ih =>
    refine measurable_rec' fun n _ => ?_
    simp only [List.take_succ_cons]
    exact measurable_cons.comp (measurable_fst.prodMk (ih.comp ((measurable_ofFn n).comp measurable_snd)))

theorem measurable_drop (k : ℕ) : Measurable (List.drop k : List V → List V) := by
  induction k with
  | zero => exact measurable_id
  | succ k ih =>
    refine measurable_rec' fun n _ => ?_
    simp only [List.drop_succ_cons]
    exact ih.comp ((measurable_ofFn n).comp measurable_snd)

/-! ### Integration -/

variable (A : Measure V)

/-- All lists of n points. -/
noncomputable def paths : ℕ → Measure (List V)
  | 0 => Measure.dirac []
  | n + 1 => (A.prod (paths n)).map fun q => q.1 :: q.2

variable [SFinite A]

instance paths_sfinite (n : ℕ) : SFinite (paths A n) := by
  induction n with
  | zero => unfold paths; infer_instance
  | succ n ih => unfold paths; infer_instance

omit [SFinite A] in
theorem lintegral_nil (F : List V → ℝ≥0∞) (hF : Measurable F) : ∫⁻ l, F l ∂paths A 0 = F [] := lintegral_dirac' _ hF

theorem lintegral_cons {n : ℕ} {F : List V → ℝ≥0∞} (hF : Measurable F) : ∫⁻ l, F l ∂paths A (n + 1) = ∫⁻ v, ∫⁻ l, F (v :: l) ∂paths A n ∂A := by
  have h : Measurable fun q : V × List V => F (q.1 :: q.2) := hF.comp measurable_cons
  rw [show paths A (n + 1) = (A.prod (paths A n)).map fun q => q.1 :: q.2 from rfl, lintegral_map hF measurable_cons, lintegral_prod _ h.aemeasurable]

theorem lintegral_append (a b : ℕ) {F : List V → ℝ≥0∞} (hF : Measurable F) : ∫⁻ l, F l ∂paths A (a + b) = ∫⁻ l, ∫⁻ l', F (l ++ l') ∂paths A b ∂paths A a := by
  induction a generalizing F with
  | zero =>
    have h : Measurable fun q : List V × List V => F (q.1 ++ q.2) := hF.comp (measurable_append.comp (measurable_snd.prodMk measurable_fst))
    rw [lintegral_nil A _ h.lintegral_prod_right', Nat.zero_add]
    rfl
  | succ a ih =>
    have h : Measurable fun q : List V × List V => F (q.1 ++ q.2) := hF.comp (measurable_append.comp (measurable_snd.prodMk measurable_fst))
    rw [lintegral_cons A h.lintegral_prod_right', show a + 1 + b = a + b + 1 by omega, lintegral_cons A hF]
    refine lintegral_congr fun v => ?_
    rw [ih (F := fun l => F (v :: l)) (hF.comp (measurable_cons.comp (measurable_const.prodMk measurable_id)))]
    rfl

theorem lintegral_snoc {n : ℕ} {F : List V → ℝ≥0∞} (hF : Measurable F) : ∫⁻ l, F l ∂paths A (n + 1) = ∫⁻ l, ∫⁻ v, F (l ++ [v]) ∂A ∂paths A n := by
  rw [lintegral_append A n 1 hF]
  refine lintegral_congr fun l => ?_
  have h : Measurable fun l' => F (l ++ l') := hF.comp (measurable_append.comp (measurable_id.prodMk measurable_const))
  rw [lintegral_cons A h]
  refine lintegral_congr fun v => ?_
  exact lintegral_nil A (fun l' => F (l ++ v :: l')) (h.comp (measurable_cons.comp (measurable_const.prodMk measurable_id)))

theorem lintegral_reverse (n : ℕ) {F : List V → ℝ≥0∞} (hF : Measurable F) : ∫⁻ l, F l.reverse ∂paths A n = ∫⁻ l, F l ∂paths A n := by
  induction n generalizing F with
  | zero => rw [lintegral_nil A _ hF, lintegral_nil A (fun l => F l.reverse) (hF.comp measurable_reverse)]; rfl
  | succ n ih =>
    have h : Measurable fun q : List V × V => F (q.1 ++ [q.2]) := hF.comp (measurable_append.comp ((measurable_cons.comp (measurable_snd.prodMk measurable_const)).prodMk measurable_fst))
    rw [lintegral_cons A (F := fun l => F l.reverse) (hF.comp measurable_reverse), lintegral_snoc A hF, lintegral_lintegral_swap (f := fun l v => F (l ++ [v])) h.aemeasurable]
    refine lintegral_congr fun v => ?_
    rw [← ih (F := fun l => F (l ++ [v])) (h.comp (measurable_id.prodMk measurable_const))]
    simp

/-- All lists of n points have n points. -/
theorem ae_length (n : ℕ) : ∀ᵐ l ∂paths A n, l.length = n := by
  have hs : ∀ n, MeasurableSet {l : List V | ¬ l.length = n} := fun n => (measurable_length (measurableSet_singleton n)).compl
  induction n with
  | zero => rw [ae_iff]; unfold paths; rw [Measure.dirac_apply' _ (hs 0)]; simp
  | succ n ih =>
    have h1 := lintegral_cons A (n := n) (F := ({l : List V | ¬ l.length = n + 1}).indicator 1) (measurable_one.indicator (hs _))
    rw [ae_iff, ← lintegral_indicator_one (hs _), h1]
    refine (lintegral_eq_zero_of_ae_eq_zero (Filter.Eventually.of_forall fun v => ?_))
    refine lintegral_eq_zero_of_ae_eq_zero (ih.mono fun l hl => ?_)
    simp [indicator, hl]

end LM.Chain
