import Verif.Props.C87_Share
import Verif.Props.C55_Enumerate
/-
  C87: the average over the subpaths of what a set of strategies adds.
-/
namespace LM.Transport
open MeasureTheory LM LM.Surface LM.Material LM.Light LM.MathF LM.Path LM.Render LM.Solid LM.Chain Set
open scoped ENNReal

/-- What the iterations add is added up. -/
theorem measured_gather (i : Fin 3) (H : ℝ × ℝ → ℝ≥0∞) (xs : List (Option (List Splat))) : measured i H (gather xs) = (xs.map (measured i H)).sum := by
  induction xs with
  | nil => rfl
  | cons x xs ih =>
    rw [List.map_cons, List.sum_cons, ← ih]
    cases x with
    | none => simp [gather, measured]
    | some a =>
      cases e : gather xs with
      | none => simp [gather, measured, e]
      | some b =>
        have : gather (some a :: xs) = some (a ++ b) := by simp [gather, e]
        rw [this, measured_append]

namespace Site
variable {S : Site} {W : World} {n : Int} {cam : Camera} {H : ℝ × ℝ → ℝ≥0∞} {mat : Int → Mat}
variable {node : ℕ → Int} {M : ℕ → Aff ℝ} {sgn : V3 ℝ → Bool} {junk : V3 ℝ} {Ke : ℕ → V3 ℝ} {ts : ℕ → List Tri}

/-! ### Points that are good for almost all subpaths -/

theorem Works.fine_ae (R : S.Works W n cam mat) (D : S.Camera' W n cam) : ∀ᵐ x ∂surf S.Fs, S.Fine W n cam x := by
  refine surf_ae fun g hg => ?_
  filter_upwards [inside_ae g.2, R.matte.sight g hg] with p hp hs
  refine ⟨⟨g, hg, rfl, hp⟩, ?_, ?_⟩
  · intro e
    apply hs.1
    have e' : p = S.eye := e
    rw [D.position, e']
    simp [toEye, V3.dot]
  · rw [← D.position]
    exact hs.2

theorem avoid_ae (e : List Node) : ∀ᵐ x ∂surf S.Fs, ∀ y ∈ e, y.1.2 ≠ x.2 := by
  induction e with
  | nil => simp
  | cons y e ih =>
    have h1 : ∀ᵐ x ∂surf S.Fs, y.1.2 ≠ x.2 := surf_ae fun g _ => by
      rw [ae_iff]
      have : {p : V3 ℝ | ¬ y.1.2 ≠ (g.1, p).2} = {y.1.2} := by
        ext p
        simp only [ne_eq, not_not, Set.mem_ofPred_eq, Set.mem_singleton_iff]
        exact eq_comm
      rw [this]
      exact triMeasure_point g.2 _
    filter_upwards [h1, ih] with x a b
    simp only [List.mem_cons, forall_eq_or_imp]
    exact ⟨a, b⟩

theorem endS_mem (z : Spot) (l : List Node) : endS z l = z ∨ ∃ y ∈ l, endS z l = y.1 := by
  induction l generalizing z with
  | nil => exact .inl rfl
  | cons y l ih =>
    right
    rcases ih y.1 with e | ⟨y', h1, h2⟩
    · exact ⟨y, by simp, e⟩
    · exact ⟨y', by simp [h1], h2⟩

theorem lastP_mem (o : V3 ℝ) (l : List Node) : lastP o l = o ∨ ∃ y ∈ l, lastP o l = y.1.2 := by
  induction l generalizing o with
  | nil => exact .inl rfl
  | cons y l ih =>
    right
    rcases ih y.1.2 with e | ⟨y', h1, h2⟩
    · exact ⟨y, by simp, e⟩
    · exact ⟨y', by simp [h1], h2⟩

theorem GoodL.mono {G G' : Spot → Prop} (hG : ∀ y, G y → G' y) {z : Spot} {l : List Node} (h : S.GoodL G z l) : S.GoodL G' z l := by
  cases l with
  | nil => trivial
  | cons y l => exact ⟨h.1, h.2.1, hG _ h.2.2.1, h.2.2.2.mono hG⟩

/-! ### What a pair of subpaths adds -/

variable (h : S.Sound) (T : S.Told W n cam) (A : S.Stage W n H)

include h A in
/-- The light subpath does not end at the camera. -/
theorem dead (mis : Bool) (i : Fin 3) (zv : Vert) {l : List Node} (hl : ∀ y ∈ l, S.Fit y) (E : List Vert) {s : ℕ} (hs : s < l.length) :
    measured i H (pathSplat W S.Q mis (zv :: l.map S.toVert) E (s + 2, 0)) = 0 := by
  have hv : subpathVertexAt (zv :: l.map S.toVert) (((s + 2 : ℕ) : ℤ) - 1) = some (S.toVert l[s]) := by
    unfold subpathVertexAt
    rw [if_pos (by simp; omega), show (((s + 2 : ℕ) : ℤ) - 1).toNat = s + 1 by omega]
    simp [hs]
  have hc : connect W S.Q.visible (zv :: l.map S.toVert) E (s + 2) 0 = .fail := by
    unfold connect
    rw [if_neg (by omega), if_neg (by omega), if_pos rfl, hv]
    dsimp only
    rw [(h.at l[s]).2.2.1]
    simp only [Bool.false_eq_true, if_false]
    unfold finish
    have h0 : ((zv :: l.map S.toVert).take (s + 2))[0]? = some zv := by simp
    have h1 : ((zv :: l.map S.toVert).take (s + 2))[((zv :: l.map S.toVert).take (s + 2)).length - 1]? = some (S.toVert l[s]) := by
      have : ((zv :: l.map S.toVert).take (s + 2)).length = s + 2 := by simp; omega
      rw [this]
      simp [hs]
    have h2 : isCamera W (S.toVert l[s]).sp = false := by
      have hp : (S.toVert l[s]).sp.primitive = l[s].1.1 := (h.faceted.at_point _ _).1
      simp only [isCamera, A.camera, hp, Option.some.injEq, decide_eq_false_iff_not]
      intro e
      exact A.other (by rw [e]; exact (hl l[s] (List.getElem_mem hs)).1)
    simp only [h0, h1, h2]
    simp
  unfold pathSplat
  dsimp only
  rw [hc]
  simp [measured]

/-- What the connections add. -/
noncomputable def joins (S : Site) (W : World) (n : Int) (cam : Camera) (H : ℝ × ℝ → ℝ≥0∞) (U : ℕ → ℕ → Bool) (mis : Bool) (i : Fin 3) (e : List Node) (L : List Vert) : ℝ≥0∞ :=
  ∑ s ∈ Finset.range L.length, ∑ t ∈ Finset.range (e.length + 2), if U (s + 1) t then measured i H (pathSplat W S.Q mis L (camV W n cam :: e.map S.toVert) (s + 1, t)) else 0

/-- What the eye subpath adds where it meets lights. -/
noncomputable def ends (S : Site) (W : World) (n : Int) (cam : Camera) (H : ℝ × ℝ → ℝ≥0∞) (U : ℕ → ℕ → Bool) (mis : Bool) (i : Fin 3) (e : List Node) : ℝ≥0∞ :=
  ∑ t ∈ Finset.range (e.length + 2), if U 0 t then measured i H (pathSplat W S.Q mis [] (camV W n cam :: e.map S.toVert) (0, t)) else 0

/-- The worth of the strategies for a point z and a light subpath of exactly the points l. -/
noncomputable def joinw (S : Site) (U : ℕ → ℕ → Bool) (ω : Weights) (i : Fin 3) (e : List Node) (z : Spot) (l : List Node) : ℝ≥0∞ :=
  ∑ t ∈ Finset.range (e.length + 1), if U (l.length + 1) (t + 1) then S.worth ω i (l.length + 1) (e.take t ++ l.reverse) z else 0

include h T A in
theorem ends_value {U : ℕ → ℕ → Bool} (hU : ∀ s t, U s t = true → 2 ≤ s + t) (mis : Bool) (i : Fin 3) {e : List Node} (hE : S.GoodE (S.Fine W n cam) e) :
    S.ends W n cam H U mis i e = ∑ j ∈ Finset.range (e.length + 1), if U 0 ((e.take j).length + 1) then S.hitw (S.heur mis) i (e.take j) else 0 := by
  unfold ends
  rw [Finset.sum_range_succ', if_neg (fun c => by have := hU 0 0 c; omega), add_zero]
  refine Finset.sum_congr rfl fun j hj => ?_
  have hj' : j ≤ e.length := by have := Finset.mem_range.mp hj; omega
  rw [List.length_take, min_eq_left hj']
  by_cases hu : U 0 (j + 1) = true
  · rw [if_pos hu, if_pos hu]
    have h2 := hU _ _ hu
    obtain ⟨k, rfl⟩ : ∃ k, j = k + 1 := ⟨j - 1, by omega⟩
    have hk : k < e.length := by omega
    rw [pathSplat_take W S.Q mis [] _ (s := 0) (t := k + 1 + 1) (by simp) (by simp; omega)]
    have e1 : e.take (k + 1) = e.take k ++ [e[k]] := by rw [List.take_concat_get' e k hk]
    have e2 : (camV W n cam :: e.map S.toVert).take (k + 1 + 1) = camV W n cam :: (e.take k ++ [e[k]]).map S.toVert := by rw [List.take_succ_cons, ← List.map_take, e1]
    have hg : S.GoodE (S.Fine W n cam) (e.take k ++ [e[k]]) := by rw [← e1]; exact hE.take _
    have hv := hit_value h T A (mis := mis) (i := i) (L := []) hg
    rw [List.length_take, min_eq_left hk.le] at hv
    rw [e2, e1, hitw_snoc]
    exact hv
  · rw [if_neg hu, if_neg hu]

include h T A in
theorem joins_value {U : ℕ → ℕ → Bool} (hU : ∀ s t, U s t = true → 2 ≤ s + t) (mis : Bool) (i : Fin 3) {e : List Node} (hE : S.GoodE (S.Fine W n cam) e) {zv : Vert} {z : Spot} (hz : S.Lit zv z) (hpA : 0 < S.pA z.1)
    (hzF : S.Fine W n cam z ∧ ∀ y ∈ e, y.1.2 ≠ z.2) {l : List Node} (hL : S.GoodL (fun x => S.Fine W n cam x ∧ ∀ y ∈ e, y.1.2 ≠ x.2) z l) :
    S.joins W n cam H U mis i e (zv :: l.map S.toVert) = ∑ j ∈ Finset.range (l.length + 1), S.joinw U (S.heur mis) i e z (l.take j) := by
  unfold joins joinw
  rw [List.length_cons, List.length_map]
  refine Finset.sum_congr rfl fun j hj => ?_
  have hj' : j ≤ l.length := by have := Finset.mem_range.mp hj; omega
  rw [List.length_take, min_eq_left hj', Finset.sum_range_succ']
  have h0 : (if U (j + 1) 0 then measured i H (pathSplat W S.Q mis (zv :: l.map S.toVert) (camV W n cam :: e.map S.toVert) (j + 1, 0)) else 0) = 0 := by
    by_cases hu : U (j + 1) 0 = true
    · rw [if_pos hu]
      have h2 := hU _ _ hu
      obtain ⟨k, rfl⟩ : ∃ k, j = k + 1 := ⟨j - 1, by omega⟩
      exact dead h A mis i zv (fun y hy => (hL.fit y hy).1) _ (by omega)
    · rw [if_neg hu]
  rw [h0, add_zero]
  refine Finset.sum_congr rfl fun t ht => ?_
  have ht' : t ≤ e.length := by have := Finset.mem_range.mp ht; omega
  by_cases hu : U (j + 1) (t + 1) = true
  · rw [if_pos hu, if_pos hu]
    rw [pathSplat_take W S.Q mis _ _ (s := j + 1) (t := t + 1) (by simp; omega) (by simp; omega)]
    have e1 : (zv :: l.map S.toVert).take (j + 1) = zv :: (l.take j).map S.toVert := by rw [List.take_succ_cons, ← List.map_take]
    have e2 : (camV W n cam :: e.map S.toVert).take (t + 1) = camV W n cam :: (e.take t).map S.toVert := by rw [List.take_succ_cons, ← List.map_take]
    have hd : (endS z (l.take j)).2 ≠ lastP S.eye (e.take t) := by
      have ha : S.Fine W n cam (endS z (l.take j)) ∧ ∀ y ∈ e, y.1.2 ≠ (endS z (l.take j)).2 := by
        rcases endS_mem z (l.take j) with c | ⟨y, hy, c⟩
        · rw [c]; exact hzF
        · rw [c]; exact (hL.fit y (List.mem_of_mem_take hy)).2
      rcases lastP_mem S.eye (e.take t) with c | ⟨y, hy, c⟩
      · rw [c]; exact ha.1.2.1
      · rw [c]; exact (ha.2 y (List.mem_of_mem_take hy)).symm
    have hv := join_value h T A (mis := mis) (i := i) hz hpA hzF.1 (hE.take t) ((hL.take j).mono fun y hy => hy.1) hd
    rw [List.length_take, List.length_take, min_eq_left hj', min_eq_left ht'] at hv
    rw [e1, e2]
    exact hv
  · rw [if_neg hu, if_neg hu]

/-! ### The averages -/

theorem Sound.m_joinw (h : S.Sound) (U : ℕ → ℕ → Bool) {ω : Weights} (hω : ω.Meas) (i : Fin 3) (e : List Node) : Measurable fun q : Spot × List Node => S.joinw U ω i e q.1 q.2 := by
  have hF : Measurable fun q : ℕ × Spot × List Node => ∑ t ∈ Finset.range (e.length + 1), (if U (q.1 + 1) (t + 1) then S.worth ω i (q.1 + 1) (e.take t ++ q.2.2.reverse) q.2.1 else 0 : ℝ≥0∞) := by
    refine measurable_from_prod_countable_right fun k => Finset.measurable_fun_sum (Finset.range (e.length + 1)) fun t _ => ?_
    have hj : Measurable fun q : Spot × List Node => e.take t ++ q.2.reverse := measurable_append.comp ((measurable_reverse.comp measurable_snd).prodMk measurable_const)
    cases hu : U (k + 1) (t + 1) with
    | true => simpa only [hu, if_true] using h.m_worth hω i (k + 1) hj measurable_fst
    | false => simpa only [hu, Bool.false_eq_true, if_false] using measurable_const
  have hn : Measurable fun q : Spot × List Node => (q.2.length, q) := (measurable_length.comp measurable_snd).prodMk measurable_id
  have := hF.comp hn
  simpa only [Function.comp_def, joinw] using this

/-- What light subpaths add, connected to the last point of the eye subpath e. -/
noncomputable def met (S : Site) (U : ℕ → ℕ → Bool) (ω : Weights) (i : Fin 3) (NL : ℕ) (e : List Node) : ℝ≥0∞ :=
  ∑ k ∈ Finset.range (max NL 2), if U (k + 1) (e.length + 1) then ∫⁻ z, ∫⁻ l, S.lamps z l * S.worth ω i (k + 1) (e ++ l.reverse) z ∂paths S.area k ∂surf S.Fs else 0

theorem Sound.m_met_one (h : S.Sound) {ω : Weights} (hω : ω.Meas) (i : Fin 3) (k : ℕ) : Measurable fun e : List Node => ∫⁻ z, ∫⁻ l, S.lamps z l * S.worth ω i (k + 1) (e ++ l.reverse) z ∂paths S.area k ∂surf S.Fs := by
  have h1 : Measurable fun q : (List Node × Spot) × List Node => S.lamps q.1.2 q.2 * S.worth ω i (k + 1) (q.1.1 ++ q.2.reverse) q.1.2 := by
    have hj : Measurable fun q : (List Node × Spot) × List Node => q.1.1 ++ q.2.reverse := measurable_append.comp ((measurable_reverse.comp measurable_snd).prodMk (measurable_fst.comp measurable_fst))
    exact (h.m_lamps (measurable_snd.comp measurable_fst) measurable_snd).mul (h.m_worth hω i (k + 1) hj (measurable_snd.comp measurable_fst))
  exact h1.lintegral_prod_right'.lintegral_prod_right'

theorem Sound.m_met (h : S.Sound) (U : ℕ → ℕ → Bool) {ω : Weights} (hω : ω.Meas) (i : Fin 3) (NL : ℕ) : Measurable (S.met U ω i NL) := by
  have hF : Measurable fun q : ℕ × List Node => ∑ k ∈ Finset.range (max NL 2), (if U (k + 1) (q.1 + 1) then ∫⁻ z, ∫⁻ l, S.lamps z l * S.worth ω i (k + 1) (q.2 ++ l.reverse) z ∂paths S.area k ∂surf S.Fs else 0 : ℝ≥0∞) := by
    refine measurable_from_prod_countable_right fun m => Finset.measurable_fun_sum (Finset.range (max NL 2)) fun k _ => ?_
    cases hu : U (k + 1) (m + 1) with
    | true => simpa only [hu, if_true] using h.m_met_one hω i k
    | false => simpa only [hu, Bool.false_eq_true, if_false] using measurable_const
  have hn : Measurable fun e : List Node => (e.length, e) := measurable_length.prodMk measurable_id
  exact hF.comp hn

theorem Sound.m_limited (h : S.Sound) (U : ℕ → ℕ → Bool) {ω : Weights} (hω : ω.Meas) (i : Fin 3) : Measurable fun e : List Node => if U 0 (e.length + 1) then S.hitw ω i e else 0 := by
  have hF : Measurable fun q : ℕ × List Node => (if U 0 (q.1 + 1) then S.hitw ω i q.2 else 0 : ℝ≥0∞) := by
    refine measurable_from_prod_countable_right fun m => ?_
    cases hu : U 0 (m + 1) with
    | true => simpa only [hu, if_true] using h.m_hitw hω i
    | false => simpa only [hu, Bool.false_eq_true, if_false] using measurable_const
  have hn : Measurable fun e : List Node => (e.length, e) := measurable_length.prodMk measurable_id
  have := hF.comp hn
  simpa only [Function.comp_def] using this

/-- The points at which the light subpaths begin have a distribution. -/
theorem Works.lamp_mass (h : S.Sound) (R : S.Works W n cam mat) (B : S.Lamped W node M sgn junk Ke ts) (rs : ℕ → Rnd) : ∫⁻ z, ENNReal.ofReal (S.pA z.1) ∂surf S.Fs = 1 := by
  classical
  have hm : MeasurableSet {q : Spot × List Node | q.2.length = 0} := (measurable_length.comp measurable_snd) (measurableSet_singleton 0)
  have hΨ : Measurable fun q : Spot × List Node => (if q.2.length = 0 then 1 else 0 : ℝ≥0∞) := Measurable.ite hm measurable_const measurable_const
  have key := R.light (O := 1) h B (G := fun _ => True) (Filter.Eventually.of_forall fun _ => trivial) (N := 1) le_rfl (fun _ => 1) (Ψ := fun _ l => if l.length = 0 then 1 else 0) hΨ
    (fun zv z l _ _ _ _ _ => by
      rw [Finset.sum_range_succ', Finset.sum_eq_zero]
      · simp
      · intro j hj
        have := Finset.mem_range.mp hj
        rw [if_neg]
        rw [List.length_take]
        omega) rs
  have e1 : (fun rs' => valued 1 (fun _ => (1 : ℝ≥0∞)) (sampleSubpath W S.Q ((1 : ℕ) : ℤ) .LE rs')) = fun _ => 1 := by
    funext rs'
    cases sampleSubpath W S.Q ((1 : ℕ) : ℤ) .LE rs' <;> rfl
  rw [e1, average_const] at key
  rw [key]
  refine lintegral_congr fun z => ?_
  rw [show max 1 2 = 2 from rfl, Finset.sum_range_succ, Finset.sum_range_one]
  have hg : Measurable fun l : List Node => S.lamps z l * (if l.length = 0 then 1 else 0 : ℝ≥0∞) := (h.m_lamps measurable_const measurable_id).mul (hΨ.comp (measurable_prodMk_left (x := z)))
  rw [lintegral_nil S.area _ hg, lintegral_congr_ae (g := fun _ => 0) ((ae_length S.area 1).mono fun l hl => by rw [hl]; simp)]
  simp [lamps]

/-- The average over the light subpaths. -/
theorem Works.light_mix {O : ℝ≥0∞} (h : S.Sound) (R : S.Works W n cam mat) (D : S.Camera' W n cam) (B : S.Lamped W node M sgn junk Ke ts) {U : ℕ → ℕ → Bool} {ω : Weights} (hω : ω.Meas) (i : Fin 3)
    {NL : ℕ} (hN : 1 ≤ NL) {e : List Node} (K : ℝ≥0∞) (F : List Vert → ℝ≥0∞) (hF : ∀ zv z l, S.Lit zv z → z.1 ∈ S.Fs.map (·.1) → 0 < S.pA z.1 → (S.Fine W n cam z ∧ ∀ y ∈ e, y.1.2 ≠ z.2) →
      S.GoodL (fun x => S.Fine W n cam x ∧ ∀ y ∈ e, y.1.2 ≠ x.2) z l → F (zv :: l.map S.toVert) = K + ∑ j ∈ Finset.range (l.length + 1), S.joinw U ω i e z (l.take j)) (rs : ℕ → Rnd) :
    average NL 0 rs (fun rs' => valued O F (sampleSubpath W S.Q NL .LE rs')) = K + ∑ t ∈ Finset.range (e.length + 1), S.met U ω i NL (e.take t) := by
  classical
  have hG : ∀ᵐ x ∂surf S.Fs, S.Fine W n cam x ∧ ∀ y ∈ e, y.1.2 ≠ x.2 := (R.fine_ae D).and (avoid_ae e)
  have hm0 : MeasurableSet {q : Spot × List Node | q.2.length = 0} := (measurable_length.comp measurable_snd) (measurableSet_singleton 0)
  have hK : Measurable fun q : Spot × List Node => (if q.2.length = 0 then K else 0 : ℝ≥0∞) := Measurable.ite hm0 measurable_const measurable_const
  have hΨ : Measurable fun q : Spot × List Node => (if q.2.length = 0 then K else 0 : ℝ≥0∞) + S.joinw U ω i e q.1 q.2 := hK.add (h.m_joinw U hω i e)
  rw [R.light h B hG hN F (Ψ := fun z l => (if l.length = 0 then K else 0) + S.joinw U ω i e z l) hΨ (fun zv z l hz hz1 hpA hzG hl => by
    rw [hF zv z l hz hz1 hpA hzG hl, Finset.sum_add_distrib]
    congr 1
    rw [Finset.sum_range_succ', Finset.sum_eq_zero]
    · simp
    · intro j hj
      have := Finset.mem_range.mp hj
      rw [if_neg]
      rw [List.length_take]
      omega) rs]
  have hsplit : ∀ z k, ∫⁻ l, S.lamps z l * ((if l.length = 0 then K else 0) + S.joinw U ω i e z l) ∂paths S.area k = (if k = 0 then ENNReal.ofReal (S.pA z.1) * K else 0) + ∫⁻ l, S.lamps z l * S.joinw U ω i e z l ∂paths S.area k := fun z k => by
    have hl : Measurable fun l => S.lamps z l := h.m_lamps measurable_const measurable_id
    have hk : Measurable fun l : List Node => (if l.length = 0 then K else 0 : ℝ≥0∞) := hK.comp (measurable_prodMk_left (x := z))
    have h1 : Measurable fun l => S.lamps z l * (if l.length = 0 then K else 0 : ℝ≥0∞) := hl.mul hk
    simp_rw [mul_add]
    rw [lintegral_add_left h1]
    congr 1
    cases k with
    | zero => rw [lintegral_nil S.area _ h1]; simp [lamps]
    | succ k =>
      rw [lintegral_congr_ae (g := fun _ => 0) ((ae_length S.area (k + 1)).mono fun l hl => by rw [hl]; simp)]
      simp
  simp_rw [hsplit, Finset.sum_add_distrib]
  have h00 : ∀ z : Spot, ∑ k ∈ Finset.range (max NL 2), (if k = 0 then ENNReal.ofReal (S.pA z.1) * K else 0) = ENNReal.ofReal (S.pA z.1) * K := fun z => by
    rw [Finset.sum_ite_eq', if_pos (Finset.mem_range.mpr (by omega))]
  simp_rw [h00]
  have hpA : Measurable fun z : Spot => ENNReal.ofReal (S.pA z.1) := by
    have := h.m_lamps (z := fun z : Spot => z) (l := fun _ : Spot => []) measurable_id measurable_const
    simpa only [lamps] using this
  rw [lintegral_add_left (hpA.mul_const K), lintegral_mul_const K hpA, R.lamp_mass h B rs, one_mul]
  congr 1
  have hjm : ∀ t k, Measurable fun q : Spot × List Node => S.lamps q.1 q.2 * (if U (k + 1) (t + 1) then S.worth ω i (k + 1) (e.take t ++ q.2.reverse) q.1 else 0) := fun t k => by
    have hj : Measurable fun q : Spot × List Node => e.take t ++ q.2.reverse := measurable_append.comp ((measurable_reverse.comp measurable_snd).prodMk measurable_const)
    refine (h.m_lamps measurable_fst measurable_snd).mul ?_
    cases hu : U (k + 1) (t + 1) with
    | true => simpa only [hu, if_true] using h.m_worth hω i (k + 1) hj measurable_fst
    | false => simpa only [hu, Bool.false_eq_true, if_false] using measurable_const
  have step : ∀ z k, ∫⁻ l, S.lamps z l * S.joinw U ω i e z l ∂paths S.area k = ∑ t ∈ Finset.range (e.length + 1), ∫⁻ l, S.lamps z l * (if U (k + 1) (t + 1) then S.worth ω i (k + 1) (e.take t ++ l.reverse) z else 0) ∂paths S.area k := fun z k => by
    have hl' : ∀ t, Measurable fun l => S.lamps z l * (if U (k + 1) (t + 1) then S.worth ω i (k + 1) (e.take t ++ l.reverse) z else 0) := fun t => (hjm t k).comp measurable_prodMk_left
    rw [← lintegral_finsetSum _ fun t _ => hl' t]
    refine lintegral_congr_ae ((ae_length S.area k).mono fun l hl => ?_)
    beta_reduce
    unfold joinw
    rw [hl, Finset.mul_sum]
  simp_rw [step]
  rw [lintegral_finsetSum _ fun k _ => Finset.measurable_fun_sum _ fun t _ => (hjm t k).lintegral_prod_right']
  have step2 : ∀ k, ∫⁻ z, ∑ t ∈ Finset.range (e.length + 1), ∫⁻ l, S.lamps z l * (if U (k + 1) (t + 1) then S.worth ω i (k + 1) (e.take t ++ l.reverse) z else 0) ∂paths S.area k ∂surf S.Fs =
      ∑ t ∈ Finset.range (e.length + 1), ∫⁻ z, ∫⁻ l, S.lamps z l * (if U (k + 1) (t + 1) then S.worth ω i (k + 1) (e.take t ++ l.reverse) z else 0) ∂paths S.area k ∂surf S.Fs := fun k => lintegral_finsetSum _ fun t _ => (hjm t k).lintegral_prod_right'
  simp_rw [step2]
  rw [Finset.sum_comm]
  refine Finset.sum_congr rfl fun t ht => ?_
  have ht' : t ≤ e.length := by have := Finset.mem_range.mp ht; omega
  unfold met
  refine Finset.sum_congr rfl fun k _ => ?_
  rw [List.length_take, min_eq_left ht']
  cases hu : U (k + 1) (t + 1) with
  | true => simp
  | false => simp

/-- The average over both subpaths, of the worth of the connections and of what depends on the eye subpath alone. -/
theorem Works.blend {O O' : ℝ≥0∞} (h : S.Sound) (R : S.Works W n cam mat) (D : S.Camera' W n cam) (B : S.Lamped W node M sgn junk Ke ts) (V : S.Proper) {U : ℕ → ℕ → Bool} {ω : Weights} (hω : ω.Meas) (i : Fin 3) {hit : List Node → ℝ≥0∞} (hm1 : Measurable hit)
    {NL NE : ℕ} (hL : 1 ≤ NL) (hE : 1 ≤ NE) (F : List Vert → List Vert → ℝ≥0∞) (hF : ∀ e, S.GoodE (S.Fine W n cam) e → ∀ zv z l, S.Lit zv z → z.1 ∈ S.Fs.map (·.1) → 0 < S.pA z.1 → (S.Fine W n cam z ∧ ∀ y ∈ e, y.1.2 ≠ z.2) →
      S.GoodL (fun x => S.Fine W n cam x ∧ ∀ y ∈ e, y.1.2 ≠ x.2) z l → F (camV W n cam :: e.map S.toVert) (zv :: l.map S.toVert) = (∑ j ∈ Finset.range (e.length + 1), hit (e.take j)) + ∑ j ∈ Finset.range (l.length + 1), S.joinw U ω i e z (l.take j)) (rsE rsL : ℕ → Rnd) :
    average NE 0 rsE (fun rsE' => valued O (fun E => average NL 0 rsL (fun rsL' => valued O' (F E) (sampleSubpath W S.Q NL .LE rsL'))) (sampleSubpath W S.Q NE .EL rsE')) =
      ∑ t ∈ Finset.range (max NE 2), (∫⁻ e, S.eyes e * hit e ∂paths S.area t + ∑ k ∈ Finset.range (max NL 2), if U (k + 1) (t + 1) then S.part ω i (k + 1) (t + k) else 0) := by
  have hm2 := h.m_met U hω i NL
  have hΨ : Measurable fun e : List Node => hit e + S.met U ω i NL e := hm1.add hm2
  rw [R.eye h D (R.fine_ae D) hE _ hΨ (fun e he => ?_) rsE]
  · refine Finset.sum_congr rfl fun t _ => ?_
    have h1 : Measurable fun e => S.eyes e * hit e := (h.m_eyes measurable_id).mul hm1
    simp_rw [mul_add]
    rw [lintegral_add_left h1]
    congr 1
    have e1 : ∫⁻ e, S.eyes e * S.met U ω i NL e ∂paths S.area t = ∫⁻ e, ∑ k ∈ Finset.range (max NL 2), (if U (k + 1) (t + 1) then S.eyes e * ∫⁻ z, ∫⁻ l, S.lamps z l * S.worth ω i (k + 1) (e ++ l.reverse) z ∂paths S.area k ∂surf S.Fs else 0) ∂paths S.area t := by
      refine lintegral_congr_ae ((ae_length S.area t).mono fun e he => ?_)
      beta_reduce
      unfold met
      rw [he, Finset.mul_sum]
      refine Finset.sum_congr rfl fun k _ => ?_
      split_ifs
      · rfl
      · rw [mul_zero]
    rw [e1, lintegral_finsetSum]
    · refine Finset.sum_congr rfl fun k _ => ?_
      cases hu : U (k + 1) (t + 1) with
      | false => simp
      | true => simpa using V.joined h hω i k t
    · intro k _
      cases hu : U (k + 1) (t + 1) with
      | false => simp
      | true =>
        have hm3 : Measurable fun e => S.eyes e * ∫⁻ z, ∫⁻ l, S.lamps z l * S.worth ω i (k + 1) (e ++ l.reverse) z ∂paths S.area k ∂surf S.Fs := (h.m_eyes measurable_id).mul (h.m_met_one hω i k)
        simpa using hm3
  · exact (R.light_mix h D B hω i hL _ (F (camV W n cam :: e.map S.toVert)) (hF e he) rsL).trans Finset.sum_add_distrib.symm

/-- The average over both subpaths, of the strategies of the renderers of renderer_bdpt.cpp. -/
theorem Works.mix {O O' : ℝ≥0∞} (h : S.Sound) (R : S.Works W n cam mat) (D : S.Camera' W n cam) (B : S.Lamped W node M sgn junk Ke ts) (T : S.Told W n cam) (A : S.Stage W n H) (V : S.Proper) {U : ℕ → ℕ → Bool} (hU : ∀ s t, U s t = true → 2 ≤ s + t) (mis : Bool) (i : Fin 3)
    {NL NE : ℕ} (hL : 1 ≤ NL) (hE : 1 ≤ NE) (F : List Vert → List Vert → ℝ≥0∞) (hF : ∀ e, S.GoodE (S.Fine W n cam) e → ∀ zv vs, F (camV W n cam :: e.map S.toVert) (zv :: vs) = S.ends W n cam H U mis i e + S.joins W n cam H U mis i e (zv :: vs)) (rsE rsL : ℕ → Rnd) :
    average NE 0 rsE (fun rsE' => valued O (fun E => average NL 0 rsL (fun rsL' => valued O' (F E) (sampleSubpath W S.Q NL .LE rsL'))) (sampleSubpath W S.Q NE .EL rsE')) =
      ∑ t ∈ Finset.range (max NE 2), ((if U 0 (t + 1) then (if t = 0 then 0 else S.part (S.heur mis) i 0 (t - 1)) else 0) + ∑ k ∈ Finset.range (max NL 2), if U (k + 1) (t + 1) then S.part (S.heur mis) i (k + 1) (t + k) else 0) := by
  rw [R.blend h D B V (U := U) (h.m_heur mis) i (h.m_limited U (h.m_heur mis) i) hL hE F (fun e he zv z l hz _ hpA hzG hl => by
    rw [hF e he, ends_value h T A hU mis i he, joins_value h T A hU mis i he hz hpA hzG hl]) rsE rsL]
  refine Finset.sum_congr rfl fun t _ => ?_
  congr 1
  rw [lintegral_congr_ae (g := fun e => S.eyes e * (if U 0 (t + 1) then S.hitw (S.heur mis) i e else 0)) ((ae_length S.area t).mono fun e he => by beta_reduce; rw [he])]
  cases hu : U 0 (t + 1) with
  | false => simp
  | true =>
    simp only [if_true]
    cases t with
    | zero =>
      have hm0 : Measurable fun e => S.eyes e * S.hitw (S.heur mis) i e := (h.m_eyes measurable_id).mul (h.m_hitw (h.m_heur mis) i)
      rw [if_pos rfl, lintegral_nil S.area _ hm0, hitw_nil, mul_zero]
    | succ t => rw [if_neg (by omega), V.hits h (h.m_heur mis), Nat.add_sub_cancel]

end Site

end LM.Transport
