import Verif.Props.C87_Mix
/-
  C87: the averages of the four renderers on bidirectional paths, by the number of points between the camera and the light.
-/
namespace LM.Transport
open MeasureTheory LM LM.Surface LM.Material LM.Light LM.MathF LM.Path LM.Render LM.Solid LM.Chain Set
open scoped ENNReal

/-- The sum over a list of strategies is the sum over the strategies it contains. -/
theorem sum_pairs {ps : List (ℕ × ℕ)} (hn : ps.Nodup) {U : ℕ → ℕ → Bool} {a b : ℕ} (hp : ∀ s t, (s, t) ∈ ps ↔ s ≤ a ∧ t ≤ b ∧ U s t = true) (g : ℕ × ℕ → ℝ≥0∞) :
    (ps.map g).sum = ∑ s ∈ Finset.range (a + 1), ∑ t ∈ Finset.range (b + 1), if U s t then g (s, t) else 0 := by
  rw [← List.sum_toFinset g hn, ← Finset.sum_product' (f := fun s t => if U s t then g (s, t) else 0), ← Finset.sum_filter]
  refine Finset.sum_congr ?_ fun _ _ => rfl
  ext ⟨s, t⟩
  simp only [List.mem_toFinset, hp, Finset.mem_filter, Finset.mem_product, Finset.mem_range, Nat.lt_succ_iff, and_assoc]

/-- The part of a sum over the lengths of both subpaths with a given total. -/
theorem sum_lengths (f : ℕ → ℕ → ℝ≥0∞) (c : ℕ → Bool) (N : ℕ) (hN : 2 ≤ N) :
    ∑ t ∈ Finset.range N, ∑ k ∈ Finset.range N, (if c (k + 1 + (t + 1)) ∧ k + 1 + (t + 1) ≤ N then f (k + 1) (t + k) else 0) = ∑ j ∈ Finset.range (N - 1), if c (j + 2) then ∑ s ∈ Finset.range (j + 1), f (s + 1) j else 0 := by
  have e1 : ∀ t ∈ Finset.range N, ∑ k ∈ Finset.range N, (if c (k + 1 + (t + 1)) ∧ k + 1 + (t + 1) ≤ N then f (k + 1) (t + k) else 0) =
      ∑ k ∈ Finset.range N, ∑ j ∈ Finset.range (N - 1), if j = t + k then (if c (j + 2) then f (k + 1) j else 0) else 0 := fun t _ => Finset.sum_congr rfl fun k _ => by
    rw [Finset.sum_ite_eq']
    by_cases hj : t + k ∈ Finset.range (N - 1)
    · rw [if_pos hj]
      have := Finset.mem_range.mp hj
      rw [show k + 1 + (t + 1) = t + k + 2 by omega]
      by_cases hc : c (t + k + 2) = true
      · rw [if_pos ⟨hc, by omega⟩, if_pos hc]
      · rw [if_neg (fun h => hc h.1), if_neg hc]
    · rw [if_neg hj, if_neg]
      rintro ⟨_, h⟩
      exact hj (Finset.mem_range.mpr (by omega))
  rw [Finset.sum_congr rfl e1]
  simp_rw [Finset.sum_comm (s := Finset.range N) (t := Finset.range (N - 1))]
  refine Finset.sum_congr rfl fun j hj => ?_
  have hj := Finset.mem_range.mp hj
  rw [Finset.sum_comm]
  cases hc : c (j + 2) with
  | false => simp
  | true =>
    simp only [if_true]
    rw [show N = (j + 1) + (N - (j + 1)) by omega, Finset.sum_range_add]
    have h2 : ∀ k ∈ Finset.range (N - (j + 1)), ∑ t ∈ Finset.range (j + 1 + (N - (j + 1))), (if j = t + (j + 1 + k) then f (j + 1 + k + 1) j else 0) = 0 := fun k _ => Finset.sum_eq_zero fun t _ => if_neg (by omega)
    rw [Finset.sum_congr rfl h2, Finset.sum_const_zero, add_zero]
    refine Finset.sum_congr rfl fun k hk => ?_
    have hk := Finset.mem_range.mp hk
    rw [Finset.sum_eq_single (j - k)]
    · rw [if_pos (by omega)]
    · intro t _ ht
      rw [if_neg (by omega)]
    · intro hn
      exact absurd (Finset.mem_range.mpr (by omega)) hn

namespace Site
variable {S : Site} {W : World} {n : Int} {cam : Camera} {H : ℝ × ℝ → ℝ≥0∞} {mat : Int → Mat}
variable {node : ℕ → Int} {M : ℕ → Aff ℝ} {sgn : V3 ℝ → Bool} {junk : V3 ℝ} {Ke : ℕ → V3 ℝ} {ts : ℕ → List Tri}

/-- What the paths with j points between the camera and the light contribute to the image. -/
noncomputable def through (S : Site) (i : Fin 3) (j : ℕ) : ℝ≥0∞ := ∫⁻ m, ∫⁻ z, S.whole i m z ∂surf S.Fs ∂paths S.area j

theorem face_ae : ∀ᵐ z ∂surf S.Fs, z.1 ∈ S.Fs.map (·.1) := surf_ae fun _ hg => Filter.Eventually.of_forall fun _ => List.mem_map.mpr ⟨_, hg, rfl⟩

variable (V : S.Proper)

include V in
theorem Proper.part_first (i : Fin 3) (j : ℕ) : S.part (S.heur false) i 0 j = S.through i j :=
  lintegral_congr_ae ((paths_ae S.area area_fit j).mono fun _ hm => lintegral_congr fun _ => V.share_first hm)

include V in
theorem Proper.part_nee (i : Fin 3) (j : ℕ) : S.part (S.heur false) i 1 j = S.through i j :=
  lintegral_congr_ae ((paths_ae S.area area_fit j).mono fun _ hm => lintegral_congr_ae (face_ae.mono fun _ hz => V.share_nee hm hz))

include V in
theorem Proper.part_light (T : S.Told W n cam) (i : Fin 3) (j : ℕ) : S.part (S.heur false) i (j + 1) j = S.through i j := by
  refine lintegral_congr_ae ?_
  filter_upwards [paths_ae S.area area_fit j, ae_length S.area j] with m hm hl
  exact lintegral_congr_ae (face_ae.mono fun _ hz => by rw [← hl]; exact V.share_light T.reciprocal hm hz)

include V in
theorem Proper.part_sum (h : S.Sound) (i : Fin 3) (j : ℕ) : ∑ s ∈ Finset.range (j + 2), S.part (S.heur true) i s j = S.through i j := by
  have hg : ∀ s, Measurable fun q : List Node × Spot => S.share (S.heur true) q.1 q.2 s * S.whole i q.1 q.2 := fun s => (h.m_share (h.m_heur true) s measurable_fst measurable_snd).mul (h.m_whole i measurable_fst measurable_snd)
  unfold part
  rw [← lintegral_finsetSum (Finset.range (j + 2)) fun s _ => (hg s).lintegral_prod_right']
  refine lintegral_congr_ae ?_
  filter_upwards [paths_ae S.area area_fit j, ae_length S.area j] with m hm hl
  have hgm : ∀ s, Measurable fun z => S.share (S.heur true) m z s * S.whole i m z := fun s => (hg s).comp measurable_prodMk_left
  rw [← lintegral_finsetSum (Finset.range (j + 2)) fun s _ => hgm s]
  exact lintegral_congr_ae (face_ae.mono fun _ hz => by rw [← hl]; exact V.share_sum hm hz)

/-! ### The renderers -/

/-- The average over the random numbers of both subpaths, eye subpath first. -/
theorem average_both (NE NL : ℕ) (sE sL : (ℕ → Rnd) → Option (List Vert)) (F : List Vert → List Vert → ℝ≥0∞) (G : (ℕ → Rnd) → (ℕ → Rnd) → ℝ≥0∞) (hG : ∀ a b, G a b = valued ⊤ (fun E => valued ⊤ (F E) (sL b)) (sE a)) (rsE rsL : ℕ → Rnd) :
    average NE 0 rsE (fun a => average NL 0 rsL (fun b => G a b)) = average NE 0 rsE (fun a => valued ⊤ (fun E => average NL 0 rsL (fun b => valued ⊤ (F E) (sL b))) (sE a)) := by
  congr 1
  funext a
  simp only [hG]
  cases sE a with
  | none => simp only [valued, average_const]
  | some E => rfl

/-- The sum over all strategies, those in which the eye subpath meets the light first. -/
theorem ends_joins (U : ℕ → ℕ → Bool) (mis : Bool) (i : Fin 3) (e : List Node) (L : List Vert) :
    ∑ s ∈ Finset.range (L.length + 1), ∑ t ∈ Finset.range ((camV W n cam :: e.map S.toVert).length + 1), (if U s t then measured i H (pathSplat W S.Q mis L (camV W n cam :: e.map S.toVert) (s, t)) else 0) =
      S.ends W n cam H U mis i e + S.joins W n cam H U mis i e L := by
  rw [Finset.sum_range_succ', add_comm]
  unfold ends joins
  rw [show (camV W n cam :: e.map S.toVert).length + 1 = e.length + 2 by simp]
  congr 1

include V in
/-- renderer::bdpt. -/
theorem Works.bdpt (h : S.Sound) (R : S.Works W n cam mat) (D : S.Camera' W n cam) (B : S.Lamped W node M sgn junk Ke ts) (T : S.Told W n cam) (A : S.Stage W n H) (i : Fin 3) {min : ℤ} (hmin : 2 ≤ min) {N : ℕ} (hN : 2 ≤ N) (rsE rsL : ℕ → Rnd) :
    average N 0 rsE (fun a => average N 0 rsL (fun b => measured i H (bdptSample W S.Q min N a b))) = ∑ j ∈ Finset.range (N - 1), if min ≤ (j : ℤ) + 2 then S.through i j else 0 := by
  set U : ℕ → ℕ → Bool := fun s t => decide (min ≤ (s : ℤ) + t ∧ (s : ℤ) + t ≤ N) with hU
  set F : List Vert → List Vert → ℝ≥0∞ := fun E L => measured i H (gather ((bdptPairs min N L.length E.length).map (pathSplat W S.Q true L E))) with hF
  rw [average_both N N (sampleSubpath W S.Q N .EL) (sampleSubpath W S.Q N .LE) F _ (fun a b => ?_)]
  · rw [R.mix h D B T A V (U := U) (fun s t hu => by have := (of_decide_eq_true hu).1; omega) true i (by omega) (by omega) F (fun e _ zv vs => ?_)]
    · rw [max_eq_left hN, Finset.sum_add_distrib]
      have e0 : ∑ t ∈ Finset.range N, (if U 0 (t + 1) then (if t = 0 then 0 else S.part (S.heur true) i 0 (t - 1)) else 0) = ∑ j ∈ Finset.range (N - 1), if min ≤ (j : ℤ) + 2 then S.part (S.heur true) i 0 j else 0 := by
        conv_lhs => rw [show N = N - 1 + 1 by omega, Finset.sum_range_succ']
        rw [if_pos rfl, ite_self, add_zero]
        refine Finset.sum_congr rfl fun j hj => ?_
        have := Finset.mem_range.mp hj
        rw [if_neg (show ¬ j + 1 = 0 by omega), show j + 1 - 1 = j by omega]
        refine if_congr ?_ rfl rfl
        simp only [hU, decide_eq_true_eq]
        push_cast
        omega
      have e1 := sum_lengths (fun s j => S.part (S.heur true) i s j) (fun l => decide (min ≤ (l : ℤ))) N hN
      have e2 : ∑ t ∈ Finset.range N, ∑ k ∈ Finset.range N, (if U (k + 1) (t + 1) then S.part (S.heur true) i (k + 1) (t + k) else 0) = ∑ j ∈ Finset.range (N - 1), if min ≤ (j : ℤ) + 2 then ∑ s ∈ Finset.range (j + 1), S.part (S.heur true) i (s + 1) j else 0 := by
        refine Eq.trans (Finset.sum_congr rfl fun t _ => Finset.sum_congr rfl fun k _ => if_congr ?_ rfl rfl) (e1.trans (Finset.sum_congr rfl fun j _ => if_congr ?_ rfl rfl))
        · simp only [hU, decide_eq_true_eq]
          push_cast
          omega
        · simp only [decide_eq_true_eq]
          push_cast
          rfl
      rw [e0, e2, ← Finset.sum_add_distrib]
      refine Finset.sum_congr rfl fun j _ => ?_
      by_cases hj : min ≤ (j : ℤ) + 2
      · rw [if_pos hj, if_pos hj, if_pos hj, ← V.part_sum h i j, Finset.sum_range_succ' _ (j + 1), add_comm]
      · rw [if_neg hj, if_neg hj, if_neg hj, add_zero]
    · rw [hF]
      dsimp only
      rw [measured_gather, List.map_map, sum_pairs (U := U) (C55_bdpt _ _ _ _).2 (fun s t => by rw [(C55_bdpt _ _ _ _).1, hU, decide_eq_true_eq]) (measured i H ∘ _)]
      exact ends_joins U true i e (zv :: vs)
  · unfold bdptSample
    cases sampleSubpath W S.Q N .EL a with
    | none => rfl
    | some E =>
      cases hL : sampleSubpath W S.Q N .LE b with
      | none => simp [valued, measured]
      | some L => simp [valued, hF]

/-- The lengths up to the limit. -/
theorem sum_lengths1 (g : ℕ → ℝ≥0∞) (min : ℤ) (N : ℕ) (hN : 1 ≤ N) : ∑ t ∈ Finset.range N, (if min ≤ (t : ℤ) + 2 ∧ (t : ℤ) + 2 ≤ N then g t else 0) = ∑ j ∈ Finset.range (N - 1), if min ≤ (j : ℤ) + 2 then g j else 0 := by
  conv_lhs => rw [show N = N - 1 + 1 by omega, Finset.sum_range_succ]
  rw [if_neg (by omega), add_zero]
  refine Finset.sum_congr rfl fun j hj => if_congr ?_ rfl rfl
  have := Finset.mem_range.mp hj
  omega

include V in
/-- renderer::pt_naive_path. -/
theorem Works.ptNaivePath (h : S.Sound) (R : S.Works W n cam mat) (D : S.Camera' W n cam) (T : S.Told W n cam) (A : S.Stage W n H) (i : Fin 3) (min : ℤ) {N : ℕ} (hN : 2 ≤ N) (rsE : ℕ → Rnd) :
    average N 0 rsE (fun a => measured i H (ptNaivePathSample W S.Q min N a)) = ∑ j ∈ Finset.range (N - 1), if min ≤ (j : ℤ) + 2 then S.through i j else 0 := by
  set U : ℕ → ℕ → Bool := fun s t => decide (s = 0 ∧ 2 ≤ t ∧ min ≤ (t : ℤ) ∧ (t : ℤ) ≤ N) with hU
  set F : List Vert → ℝ≥0∞ := fun E => measured i H (gather ((ptNaivePairs min N E.length).map (pathSplat W S.Q false [] E))) with hF
  have hU2 : ∀ s t, U s t = true → 2 ≤ s + t := fun s t hu => by have := of_decide_eq_true hu; omega
  have e : (fun a => measured i H (ptNaivePathSample W S.Q min N a)) = fun a => valued ⊤ F (sampleSubpath W S.Q N .EL a) := by
    funext a
    unfold ptNaivePathSample
    cases sampleSubpath W S.Q N .EL a with
    | none => rfl
    | some E => rfl
  rw [e, R.eye h D (R.fine_ae D) (by omega) F (h.m_limited U (h.m_heur false) i) (fun e he => ?_) rsE, max_eq_left hN]
  · conv_lhs => rw [show N = N - 1 + 1 by omega, Finset.sum_range_succ']
    have e0 : ∫⁻ e, S.eyes e * (if U 0 (e.length + 1) then S.hitw (S.heur false) i e else 0) ∂paths S.area 0 = 0 := by
      rw [lintegral_congr_ae (g := fun _ => 0) ((ae_length S.area 0).mono fun e he => by rw [he, if_neg (by simp [hU]), mul_zero])]
      simp
    rw [e0, add_zero]
    refine Finset.sum_congr rfl fun j hj => ?_
    have hj := Finset.mem_range.mp hj
    by_cases hc : min ≤ (j : ℤ) + 2
    · rw [if_pos hc, ← V.part_first i j, ← V.hits h (h.m_heur false) i j]
      refine lintegral_congr_ae ((ae_length S.area (j + 1)).mono fun e he => ?_)
      beta_reduce
      rw [he, if_pos (by simp only [hU, decide_eq_true_eq]; push_cast; simp only [true_and]; omega)]
    · rw [if_neg hc, lintegral_congr_ae (g := fun _ => 0) ((ae_length S.area (j + 1)).mono fun e he => by rw [he, if_neg (by simp only [hU, decide_eq_true_eq]; push_cast; simp only [true_and]; omega), mul_zero])]
      simp
  · rw [← ends_value h T A hU2 false i he, hF]
    dsimp only
    rw [measured_gather, List.map_map, sum_pairs (U := U) (a := 0) (b := (camV W n cam :: e.map S.toVert).length) (C55_pt_naive _ _ _).2 (fun s t => by rw [(C55_pt_naive _ _ _).1, hU, decide_eq_true_eq]; dsimp only; omega) (measured i H ∘ _)]
    have := ends_joins (S := S) (W := W) (n := n) (cam := cam) (H := H) U false i e []
    rw [show ([] : List Vert).length + 1 = 0 + 1 from rfl] at this
    refine this.trans ?_
    simp [joins]

include V in
/-- renderer::lt_nee_path. -/
theorem Works.ltNeePath (h : S.Sound) (R : S.Works W n cam mat) (D : S.Camera' W n cam) (B : S.Lamped W node M sgn junk Ke ts) (T : S.Told W n cam) (A : S.Stage W n H) (i : Fin 3) (min : ℤ) {N : ℕ} (hN : 2 ≤ N) (rsE rsL : ℕ → Rnd) :
    average 1 0 rsE (fun a => average N 0 rsL (fun b => measured i H (ltNeePathSample W S.Q min N a b))) = ∑ j ∈ Finset.range (N - 1), if min ≤ (j : ℤ) + 2 then S.through i j else 0 := by
  set U : ℕ → ℕ → Bool := fun s t => decide (t = 1 ∧ 1 ≤ s ∧ min ≤ (s : ℤ) + t ∧ (s : ℤ) + t ≤ N) with hU
  have hU2 : ∀ s t, U s t = true → 2 ≤ s + t := fun s t hu => by have := of_decide_eq_true hu; omega
  set F : List Vert → List Vert → ℝ≥0∞ := fun E L => if E.length = 0 then ⊤ else measured i H (gather ((ltNeePairs min N L.length E.length).map (pathSplat W S.Q false L E))) with hF
  rw [average_both 1 N (sampleSubpath W S.Q 1 .EL) (sampleSubpath W S.Q N .LE) F _ (fun a b => ?_)]
  · have key := R.mix (O := ⊤) (O' := ⊤) h D B T A V (NL := N) (NE := 1) (U := U) hU2 false i (by omega) le_rfl F (fun e _ zv vs => ?_) rsE rsL
    · rw [show ((1 : ℕ) : ℤ) = 1 from rfl] at key
      rw [key, max_eq_left hN, show max 1 2 = 2 from rfl]
      have h0 : ∀ t, U 0 (t + 1) = false := fun t => decide_eq_false (by omega)
      have h1 : ∀ k, U (k + 1) (1 + 1) = false := fun t => decide_eq_false (by omega)
      simp only [Finset.sum_range_succ _ 1, Finset.sum_range_one, h0, h1, Bool.false_eq_true, if_false, zero_add, Finset.sum_const_zero, add_zero]
      rw [← sum_lengths1 _ min N (by omega)]
      refine Finset.sum_congr rfl fun k _ => ?_
      rw [V.part_light T]
      refine if_congr ?_ rfl rfl
      simp only [hU, decide_eq_true_eq]
      push_cast
      simp only [true_and]
      omega
    · rw [hF]
      dsimp only
      rw [if_neg (by simp), measured_gather, List.map_map, sum_pairs (U := U) (a := (zv :: vs).length) (b := (camV W n cam :: e.map S.toVert).length) (C55_lt_nee _ _ _ _ (by simp)).2 (fun s t => by rw [(C55_lt_nee _ _ _ _ (by simp)).1, hU, decide_eq_true_eq]; simp only [List.length_cons]; omega) (measured i H ∘ _)]
      exact ends_joins U false i e (zv :: vs)
  · unfold ltNeePathSample
    cases sampleSubpath W S.Q 1 .EL a with
    | none => rfl
    | some E =>
      cases hL : sampleSubpath W S.Q N .LE b with
      | none => simp [valued, measured]
      | some L =>
        cases E with
        | nil => rfl
        | cons v E => rfl

theorem specularity_plain {l : List Vert} (hl : ∀ v ∈ l, isSpecularComponent W v.sp v.comp = some false) : specularity W l = some (List.replicate l.length false) := by
  unfold specularity
  induction l with
  | nil => rfl
  | cons v l ih =>
    rw [List.mapM_cons, hl v (by simp), ih fun u hu => hl u (by simp [hu])]
    rfl

include V in
/-- renderer::pt_nee_path. -/
theorem Works.ptNeePath (h : S.Sound) (R : S.Works W n cam mat) (D : S.Camera' W n cam) (B : S.Lamped W node M sgn junk Ke ts) (T : S.Told W n cam) (A : S.Stage W n H) (i : Fin 3) (min : ℤ) {N : ℕ} (hN : 2 ≤ N) (rsE rsL : ℕ → Rnd) :
    average N 0 rsE (fun a => average 1 0 rsL (fun b => measured i H (ptNeePathSample W S.Q min N a b))) = ∑ j ∈ Finset.range (N - 1), if min ≤ (j : ℤ) + 2 then S.through i j else 0 := by
  set U : ℕ → ℕ → Bool := fun s t => decide (s = 1 ∧ 1 ≤ t ∧ min ≤ (s : ℤ) + t ∧ (s : ℤ) + t ≤ N) with hU
  have hU2 : ∀ s t, U s t = true → 2 ≤ s + t := fun s t hu => by have := of_decide_eq_true hu; omega
  have h0 : ∀ t, U 0 t = false := fun t => decide_eq_false (by omega)
  set F : List Vert → List Vert → ℝ≥0∞ := fun E L => if L.length = 0 then ⊤ else measured i H ((specularity W E).bind fun spec => gather ((ptNeePairs min N L.length E.length fun i => spec[i]? == some true).map (pathSplat W S.Q false L E))) with hF
  rw [average_both N 1 (sampleSubpath W S.Q N .EL) (sampleSubpath W S.Q 1 .LE) F _ (fun a b => ?_)]
  · have key := R.mix (O := ⊤) (O' := ⊤) h D B T A V (NL := 1) (NE := N) (U := U) hU2 false i le_rfl (by omega) F (fun e he zv vs => ?_) rsE rsL
    · rw [show ((1 : ℕ) : ℤ) = 1 from rfl] at key
      rw [key, max_eq_left hN, show max 1 2 = 2 from rfl]
      have h1 : ∀ t, U (1 + 1) t = false := fun t => decide_eq_false (by omega)
      simp only [Finset.sum_range_succ _ 1, Finset.sum_range_one, h0, h1, Bool.false_eq_true, if_false, zero_add, add_zero]
      rw [← sum_lengths1 _ min N (by omega)]
      refine Finset.sum_congr rfl fun k _ => ?_
      rw [V.part_nee]
      refine if_congr ?_ rfl rfl
      simp only [hU, decide_eq_true_eq]
      push_cast
      simp only [true_and]
      omega
    · have hsp : specularity W (camV W n cam :: e.map S.toVert) = some (List.replicate (camV W n cam :: e.map S.toVert).length false) := specularity_plain fun v hv => by
        rcases List.mem_cons.mp hv with rfl | hv
        · rfl
        · obtain ⟨y, hy, rfl⟩ := List.mem_map.mp hv
          have := (he.fit y hy).1
          exact T.plain _ this.1 _ this.2 _
      have hspec : (fun i : ℕ => (List.replicate (camV W n cam :: e.map S.toVert).length false)[i]? == some true) = fun _ => false := by
        funext i
        rw [List.getElem?_replicate]
        split <;> rfl
      rw [hF]
      dsimp only
      rw [if_neg (by simp), hsp, Option.bind_some, hspec]
      have hc := C55_pt_nee min N (zv :: vs).length (camV W n cam :: e.map S.toVert).length (by simp) (fun _ => false)
      rw [measured_gather, List.map_map, sum_pairs (U := U) (a := (zv :: vs).length) (b := (camV W n cam :: e.map S.toVert).length) (List.Nodup.of_map _ hc.2)
        (fun s t => by rw [hc.1, hU, decide_eq_true_eq]; simp only [List.length_cons, Bool.false_eq_true, if_false]; omega) (measured i H ∘ _)]
      exact ends_joins U false i e (zv :: vs)
  · unfold ptNeePathSample
    cases sampleSubpath W S.Q N .EL a with
    | none => rfl
    | some E =>
      cases hL : sampleSubpath W S.Q 1 .LE b with
      | none => simp [valued, measured]
      | some L =>
        cases L with
        | nil => rfl
        | cons v L => rfl

end Site
end LM.Transport
