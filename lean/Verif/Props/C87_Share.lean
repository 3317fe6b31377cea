import Verif.Props.C87_Mass
/-
  C87: the shares of the strategies in the image.
-/
namespace LM.Transport
open MeasureTheory LM LM.Surface LM.Material LM.Light LM.MathF LM.Path LM.Render LM.Solid Set
open scoped ENNReal

namespace Site
open Chain
variable {S : Site}

/-! ### Measurability -/

section
variable {α : Type} [MeasurableSpace α] {l : α → List Node} {z : α → Spot}

/-- The weights are measurable. -/
def Weights.Meas (ω : Weights) : Prop := ∀ s, Measurable fun q : List Node × Spot => ω q.1 q.2 s

theorem Sound.m_heur (h : S.Sound) (mis : Bool) : (S.heur mis).Meas := by
  intro s
  have key : ∀ {α : Type} [MeasurableSpace α] {l : α → List Node} {z : α → Spot}, Measurable l → Measurable z → Measurable fun a => S.heur mis (l a) (z a) s := by
    intro α _ l z hl hz
    unfold heur
    cases mis with
    | false => simp only [Bool.false_eq_true, if_false]; exact measurable_const
    | true =>
    simp only [if_true]
    refine Measurable.div ((h.m_dens hl hz s).pow_const 2) ?_
    have hn : Measurable fun a => ((l a).length, a) := (measurable_length.comp hl).prodMk measurable_id
    have hF : Measurable fun q : ℕ × α => ∑ k ∈ Finset.range (q.1 + 3), S.dens (l q.2) (z q.2) k ^ 2 :=
      measurable_from_prod_countable_right fun N => Finset.measurable_fun_sum (Finset.range (N + 3)) fun k _ => (h.m_dens hl hz k).pow_const 2
    have := hF.comp hn
    simpa only [Function.comp_def] using this
  exact key measurable_fst measurable_snd

variable {ω : Weights} (hω : ω.Meas)

include hω in
theorem Weights.Meas.of (s : ℕ) (hl : Measurable l) (hz : Measurable z) : Measurable fun a => ENNReal.ofReal (ω (l a) (z a) s) := ((hω s).comp (hl.prodMk hz)).ennreal_ofReal

include hω in
theorem Sound.m_worth (h : S.Sound) (i : Fin 3) (s : ℕ) (hl : Measurable l) (hz : Measurable z) : Measurable fun a => S.worth ω i s (l a) (z a) :=
  (((h.m_dens hl hz s).ennreal_ofReal.inv).mul (hω.of s hl hz)).mul (h.m_whole i hl hz)

include hω in
theorem Sound.m_share (h : S.Sound) (s : ℕ) (hl : Measurable l) (hz : Measurable z) : Measurable fun a => S.share ω (l a) (z a) s :=
  Measurable.ite (measurableSet_lt measurable_const (h.m_dens hl hz s)) (hω.of s hl hz) measurable_const

end

/-- What strategy s adds to the image through paths of j points between the camera and the light. -/
noncomputable def part (S : Site) (ω : Weights) (i : Fin 3) (s j : ℕ) : ℝ≥0∞ := ∫⁻ m, ∫⁻ z, S.share ω m z s * S.whole i m z ∂surf S.Fs ∂paths S.area j

/-- The worth of an eye subpath that ends on a light. -/
noncomputable def hitw (S : Site) (ω : Weights) (i : Fin 3) (e : List Node) : ℝ≥0∞ :=
  match e.reverse with
  | [] => 0
  | y :: r => S.worth ω i 0 r.reverse y.1

theorem hitw_nil (ω : Weights) (i : Fin 3) : S.hitw ω i [] = 0 := rfl

theorem hitw_snoc (ω : Weights) (i : Fin 3) (m : List Node) (y : Node) : S.hitw ω i (m ++ [y]) = S.worth ω i 0 m y.1 := by
  unfold hitw
  rw [List.reverse_append]
  simp

theorem Sound.m_hitw (h : S.Sound) {ω : Weights} (hω : ω.Meas) (i : Fin 3) : Measurable (S.hitw ω i) := by
  have h1 : Measurable fun r : List Node => (match r with | [] => 0 | y :: r => S.worth ω i 0 r.reverse y.1 : ℝ≥0∞) := by
    refine measurable_rec' (F := fun r : List Node => (match r with | [] => 0 | y :: r => S.worth ω i 0 r.reverse y.1 : ℝ≥0∞)) fun n _ => ?_
    exact h.m_worth hω i 0 (measurable_reverse.comp ((measurable_ofFn n).comp measurable_snd)) (measurable_fst.comp measurable_fst)
  exact h1.comp measurable_reverse

theorem placed_ae : ∀ᵐ z ∂surf S.Fs, Placed S z := surf_ae fun g hg => (inside_ae g.2).mono fun _ hp => ⟨g, hg, rfl, hp⟩

theorem fit_placed_ae : ∀ᵐ y ∂S.area, S.Fit y ∧ Placed S y.1 := area_ae fun g hg _ hc => (inside_ae g.2).mono fun _ hp => ⟨⟨List.mem_map.mpr ⟨g, hg, rfl⟩, hc⟩, g, hg, rfl, hp⟩

variable (R : S.Proper)

include R in
/-- Paths that end on a light. -/
theorem Proper.hits (h : S.Sound) {ω : Weights} (hω : ω.Meas) (i : Fin 3) (t : ℕ) : ∫⁻ e, S.eyes e * S.hitw ω i e ∂paths S.area (t + 1) = S.part ω i 0 t := by
  have hm : Measurable fun e => S.eyes e * S.hitw ω i e := (h.m_eyes measurable_id).mul (h.m_hitw hω i)
  rw [lintegral_snoc S.area hm]
  unfold part
  refine lintegral_congr_ae ((paths_ae S.area fit_placed_ae t).mono fun m hfit => ?_)
  beta_reduce
  have hsn : Measurable fun y : Node => m ++ [y] := measurable_append.comp ((measurable_cons.comp (measurable_id.prodMk measurable_const)).prodMk measurable_const)
  rw [area_surf (F := fun y => S.eyes (m ++ [y]) * S.hitw ω i (m ++ [y])) (hm.comp hsn)]
  refine lintegral_congr_ae (placed_ae.mono fun z hz => ?_)
  beta_reduce
  rw [← R.mass_worth0 ω (fun y hy => (hfit y hy).1) hz.prim]
  refine Finset.sum_congr rfl fun c _ => ?_
  rw [hitw_snoc]

include R in
/-- Paths that are joined from two subpaths. -/
theorem Proper.joined (h : S.Sound) {ω : Weights} (hω : ω.Meas) (i : Fin 3) (k t : ℕ) :
    ∫⁻ e, S.eyes e * ∫⁻ z, ∫⁻ l, S.lamps z l * S.worth ω i (k + 1) (e ++ l.reverse) z ∂paths S.area k ∂surf S.Fs ∂paths S.area t = S.part ω i (k + 1) (t + k) := by
  have hg : Measurable fun q : List Node × Spot => S.share ω q.1 q.2 (k + 1) * S.whole i q.1 q.2 := (h.m_share hω (k + 1) measurable_fst measurable_snd).mul (h.m_whole i measurable_fst measurable_snd)
  unfold part
  rw [lintegral_append S.area t k hg.lintegral_prod_right']
  refine lintegral_congr_ae ((paths_ae S.area fit_placed_ae t).mono fun e he => ?_)
  beta_reduce
  have hj : Measurable fun l : List Node => e ++ l := measurable_append.comp (measurable_id.prodMk measurable_const)
  have hg2 : Measurable fun q : List Node × Spot => S.share ω (e ++ q.1) q.2 (k + 1) * S.whole i (e ++ q.1) q.2 := hg.comp ((hj.comp measurable_fst).prodMk measurable_snd)
  have hrev := lintegral_reverse S.area k (F := fun l => ∫⁻ z, S.share ω (e ++ l) z (k + 1) * S.whole i (e ++ l) z ∂surf S.Fs) hg2.lintegral_prod_right'
  rw [← hrev]
  have hjr : Measurable fun q : List Node × Spot => e ++ q.1.reverse := hj.comp (measurable_reverse.comp measurable_fst)
  have hg3 : Measurable fun q : List Node × Spot => S.share ω (e ++ q.1.reverse) q.2 (k + 1) * S.whole i (e ++ q.1.reverse) q.2 := hg.comp (hjr.prodMk measurable_snd)
  have hsw := lintegral_lintegral_swap (μ := paths S.area k) (ν := surf S.Fs) (f := fun l z => S.share ω (e ++ l.reverse) z (k + 1) * S.whole i (e ++ l.reverse) z) hg3.aemeasurable
  rw [hsw]
  have hw : Measurable fun q : Spot × List Node => S.lamps q.1 q.2 * S.worth ω i (k + 1) (e ++ q.2.reverse) q.1 := (h.m_lamps measurable_fst measurable_snd).mul (h.m_worth hω i (k + 1) (hj.comp (measurable_reverse.comp measurable_snd)) measurable_fst)
  rw [← lintegral_const_mul _ hw.lintegral_prod_right']
  refine lintegral_congr_ae (placed_ae.mono fun z hz => ?_)
  beta_reduce
  have hwz : Measurable fun l : List Node => S.lamps z l * S.worth ω i (k + 1) (e ++ l.reverse) z := hw.comp measurable_prodMk_left
  rw [← lintegral_const_mul _ hwz]
  refine lintegral_congr_ae ?_
  filter_upwards [paths_ae S.area fit_placed_ae k, ae_length S.area k] with l hl hk
  have := R.mass_worth h ω (i := i) (e := e) (l := l) (z := z) (fun y hy => (he y hy).1) hl hz
  rwa [hk] at this

/-! ### Densities that are positive -/

theorem carry_f {i : Fin 3} {w : V3 ℝ} {x : Node} {y : Spot} (hc : S.carry i w x y ≠ 0) : S.f x.1.1 x.2 x.1.2 (dirOf (w - x.1.2)) (dirOf (y.2 - x.1.2)) ≠ 0 := by
  intro c
  apply hc
  unfold carry kern
  rw [c]
  have : chan i 0 = 0 := by fin_cases i <;> rfl
  rw [this]
  simp

theorem carry_hop {i : Fin 3} {w : V3 ℝ} {x : Node} {y : Spot} (hc : S.carry i w x y ≠ 0) : S.Hop x.1.2 y ∧ S.Hop y.2 x.1 := by
  have hf : S.facing x.1.2 y ≠ 0 := by
    intro c
    unfold carry at hc
    rw [c] at hc
    simp at hc
  have hh := hop_of_facing hf
  refine ⟨hh, hop_of_cos hh.1.symm ?_⟩
  intro c
  unfold carry kern at hc
  have : |V3.dot (dirOf (y.2 - x.1.2)) (S.vertex x.1.1 x.1.2).geom.n| = 0 := by rw [V3.dot_comm]; exact c
  rw [this] at hc
  simp at hc

include R in
theorem Proper.go_pos {i : Fin 3} {w : V3 ℝ} {x : Node} {y : Spot} (hx : S.Fit x) (hw : S.Hop w x.1) (hc : S.carry i w x y ≠ 0) : 0 < S.goR w x y := by
  obtain ⟨h1, h2⟩ := carry_hop hc
  exact mul_pos (mul_pos ((R.P _ hx.1 _ hx.2 _ _ _ (unit_to hw.1.symm) (unit_to h1.1) hw.2).2 (carry_f hc)) (cos_pos h2)) (facing_pos h1)

include R in
theorem Proper.tail_pos {i : Fin 3} {w : V3 ℝ} {x : Node} {l : List Node} {z : Spot} (hw : S.Hop w x.1) (hx : S.Fit x) (hl : ∀ y ∈ l, S.Fit y) (ht : S.tail i w x l z ≠ 0) : 0 < S.linksR w x l ∧ 0 < S.lastR w x l z := by
  induction l generalizing w x with
  | nil =>
    simp only [tail] at ht
    have h1 : S.carry i w x z ≠ 0 := fun c => ht (by rw [c]; simp)
    exact ⟨one_pos, R.go_pos hx hw h1⟩
  | cons y l ih =>
    simp only [tail] at ht
    have h1 : S.carry i w x y.1 ≠ 0 := fun c => ht (by rw [c]; simp)
    have h2 : S.tail i x.1.2 y l z ≠ 0 := fun c => ht (by rw [c]; simp)
    obtain ⟨a, b⟩ := ih (carry_hop h1).1 (hl y (by simp)) (fun y' hy' => hl y' (by simp [hy'])) h2
    exact ⟨mul_pos (mul_pos (R.go_pos hx hw h1) (R.pick (hl y (by simp)) (carry_hop h1).1)) a, b⟩

include R in
theorem Proper.eye_pos {i : Fin 3} {m : List Node} {z : Spot} (hm : ∀ y ∈ m, S.Fit y) (hw : S.whole i m z ≠ 0) : 0 < S.eyesR m ∧ 0 < S.reachR m z := by
  have key : ∀ y : Spot, ENNReal.ofReal (S.We (dirOf (y.2 - S.eye))) ≠ 0 → ENNReal.ofReal (S.facing S.eye y) ≠ 0 → 0 < S.eyeR y := fun y h1 h2 => mul_pos (ENNReal.ofReal_pos.mp (pos_iff_ne_zero.mpr h1)) (ENNReal.ofReal_pos.mp (pos_iff_ne_zero.mpr h2))
  cases m with
  | nil =>
    simp only [whole] at hw
    exact ⟨one_pos, key z (fun c => hw (by rw [c]; simp)) (fun c => hw (by rw [c]; simp))⟩
  | cons y l =>
    have hop := (whole_ne hw).2.there
    simp only [whole] at hw
    have h2 : S.tail i S.eye y l z ≠ 0 := fun c => hw (by rw [c]; simp)
    obtain ⟨a, b⟩ := R.tail_pos hop.1 (hm y (by simp)) (fun y' hy' => hm y' (by simp [hy'])) h2
    exact ⟨mul_pos (mul_pos (key y.1 (fun c => hw (by rw [c]; simp)) (fun c => hw (by rw [c]; simp))) (R.pick (hm y (by simp)) hop.1)) a, b⟩

theorem lastR_snoc (w : V3 ℝ) (x : Node) (l : List Node) (y : Node) (z : Spot) : S.lastR w x (l ++ [y]) z = S.goR (lastP x.1.2 l) y z := by
  induction l generalizing w x with
  | nil => rfl
  | cons a l ih => exact ih _ _

theorem lampsR_snoc2 (z : Spot) (l : List Node) (y x : Node) : S.lampsR z (l ++ [y] ++ [x]) = S.lampsR z (l ++ [y]) * (S.goR (lastP z.2 l) y x.1 * S.pickR y.1.2 x) := by
  cases l with
  | nil => simp [lampsR, linksR, linkR, lastP]
  | cons a l =>
    simp only [List.cons_append, lampsR]
    rw [linksR_snoc, lastR_snoc, lastP_snoc]
    simp only [lastP]
    ring

/-- The first of the points, or z. -/
def headS (z : Spot) : List Node → Spot
  | [] => z
  | y :: _ => y.1

include R in
theorem Proper.back_pos (hr : ∀ j ∈ S.Fs.map (·.1), ∀ c ∈ S.C j, ∀ p wi wo, V3.dot wi wi = 1 → V3.dot wo wo = 1 → V3.dot wi (S.vertex j p).geom.n ≠ 0 → V3.dot wo (S.vertex j p).geom.n ≠ 0 → S.f j c p wi wo = S.f j c p wo wi)
    {i : Fin 3} {w : V3 ℝ} {x : Node} {l : List Node} {z : Spot} (hz : z.1 ∈ S.Fs.map (·.1)) (hx : S.Fit x) (hl : ∀ y ∈ l, S.Fit y) (ht : S.tail i w x l z ≠ 0) : 0 < S.lampsR z (x :: l).reverse := by
  induction l generalizing w x with
  | nil =>
    simp only [tail] at ht
    have h1 : S.carry i w x z ≠ 0 := fun c => ht (by rw [c]; simp)
    have h2 : S.Le z.1 z.2 (dirOf (x.1.2 - z.2)) ≠ 0 := fun c => ht (by
      rw [c]
      have : chan i 0 = 0 := by fin_cases i <;> rfl
      rw [this]
      simp)
    obtain ⟨a, b⟩ := R.lit _ hz _ _ h2
    obtain ⟨c, d⟩ := carry_hop h1
    exact mul_pos (mul_pos a (mul_pos (mul_pos (mul_pos b (cos_pos c)) (facing_pos d)) (R.pick hx d))) one_pos
  | cons y l ih =>
    simp only [tail] at ht
    have h1 : S.carry i w x y.1 ≠ 0 := fun c => ht (by rw [c]; simp)
    have h2 : S.tail i x.1.2 y l z ≠ 0 := fun c => ht (by rw [c]; simp)
    have hy := hl y (by simp)
    have h3 := ih hy (fun y' hy' => hl y' (by simp [hy'])) h2
    have h4 : S.carry i x.1.2 y (headS z l) ≠ 0 := by
      cases l with
      | nil =>
        simp only [tail] at h2
        exact fun c => h2 (by
          have c' : S.carry i x.1.2 y z = 0 := c
          rw [c']; simp)
      | cons y' l =>
        simp only [tail] at h2
        exact fun c => h2 (by
          have c' : S.carry i x.1.2 y y'.1 = 0 := c
          rw [c']; simp)
    have h5 : lastP z.2 l.reverse = (headS z l).2 := by
      cases l with
      | nil => rfl
      | cons y' l => rw [lastP_reverse]; rfl
    rw [List.reverse_cons, List.reverse_cons, lampsR_snoc2, h5]
    rw [List.reverse_cons] at h3
    obtain ⟨a, b⟩ := carry_hop h1
    obtain ⟨c, d⟩ := carry_hop h4
    refine mul_pos h3 (mul_pos (mul_pos (mul_pos ?_ (cos_pos a)) (facing_pos b)) (R.pick hx b))
    have hf := carry_f h4
    rw [hr _ hy.1 _ hy.2 _ _ _ (unit_to a.1.symm) (unit_to d.1.symm) a.2 d.2] at hf
    exact (R.P _ hy.1 _ hy.2 _ _ _ (unit_to d.1.symm) (unit_to a.1.symm) d.2).2 hf

/-! ### Shares -/

theorem dens_beyond {m : List Node} {z : Spot} : S.dens m z (m.length + 2) = 0 := by
  simp only [dens]
  rw [if_neg (by omega)]

theorem dens_first (m : List Node) (z : Spot) : S.dens m z 1 = S.pA z.1 * S.eyesR m := by
  have := dens_join (S := S) m [] z
  simpa [lampsR] using this

theorem dens_last (m : List Node) (z : Spot) : S.dens m z (m.length + 1) = S.lampsR z m.reverse := by
  have := dens_join (S := S) [] m.reverse z
  simpa [eyesR] using this

include R in
theorem Proper.share_first {i : Fin 3} {m : List Node} {z : Spot} (hm : ∀ y ∈ m, S.Fit y) : S.share (S.heur false) m z 0 * S.whole i m z = S.whole i m z := by
  by_cases hw : S.whole i m z = 0
  · rw [hw, mul_zero]
  · obtain ⟨a, b⟩ := R.eye_pos hm hw
    unfold share heur
    rw [if_pos (show 0 < S.dens m z 0 from mul_pos a b)]
    simp

theorem whole_Le {i : Fin 3} {m : List Node} {z : Spot} (hw : S.whole i m z ≠ 0) : ∃ d, S.Le z.1 z.2 d ≠ 0 := by
  by_contra c
  push Not at c
  have h0 : chan i 0 = 0 := by fin_cases i <;> rfl
  have ht : ∀ (w : V3 ℝ) (x : Node) (l : List Node), S.tail i w x l z = 0 := fun w x l => by
    induction l generalizing w x with
    | nil => simp only [tail]; rw [c, h0]; simp
    | cons y l ih => simp only [tail]; rw [ih]; simp
  apply hw
  cases m with
  | nil => simp only [whole]; rw [c, h0]; simp
  | cons y l => simp only [whole]; rw [ht]; simp

include R in
theorem Proper.share_nee {i : Fin 3} {m : List Node} {z : Spot} (hm : ∀ y ∈ m, S.Fit y) (hz : z.1 ∈ S.Fs.map (·.1)) : S.share (S.heur false) m z 1 * S.whole i m z = S.whole i m z := by
  by_cases hw : S.whole i m z = 0
  · rw [hw, mul_zero]
  · obtain ⟨a, b⟩ := R.eye_pos hm hw
    obtain ⟨d, hd⟩ := whole_Le hw
    unfold share heur
    rw [if_pos (show 0 < S.dens m z 1 by rw [dens_first]; exact mul_pos (R.lit _ hz _ _ hd).1 a)]
    simp

include R in
theorem Proper.share_light (hr : ∀ j ∈ S.Fs.map (·.1), ∀ c ∈ S.C j, ∀ p wi wo, V3.dot wi wi = 1 → V3.dot wo wo = 1 → V3.dot wi (S.vertex j p).geom.n ≠ 0 → V3.dot wo (S.vertex j p).geom.n ≠ 0 → S.f j c p wi wo = S.f j c p wo wi)
    {i : Fin 3} {m : List Node} {z : Spot} (hm : ∀ y ∈ m, S.Fit y) (hz : z.1 ∈ S.Fs.map (·.1)) : S.share (S.heur false) m z (m.length + 1) * S.whole i m z = S.whole i m z := by
  by_cases hw : S.whole i m z = 0
  · rw [hw, mul_zero]
  · have : 0 < S.dens m z (m.length + 1) := by
      rw [dens_last]
      cases m with
      | nil =>
        obtain ⟨d, hd⟩ := whole_Le hw
        exact (R.lit _ hz _ _ hd).1
      | cons y l =>
        simp only [whole] at hw
        have h2 : S.tail i S.eye y l z ≠ 0 := fun c => hw (by rw [c]; simp)
        exact R.back_pos hr hz (hm y (by simp)) (fun y' hy' => hm y' (by simp [hy'])) h2
    unfold share heur
    rw [if_pos this]
    simp

include R in
theorem Proper.links_nonneg {w : V3 ℝ} {x : Node} {l : List Node} (hx : S.Fit x) (hl : ∀ y ∈ l, S.Fit y) (hw : S.Hop w x.1) (hop : S.Hops x.1.2 l) : 0 ≤ S.linksR w x l := by
  induction l generalizing w x with
  | nil => exact zero_le_one
  | cons y l ih => exact mul_nonneg (R.link hx (hl y (by simp)) hw hop.1) (ih (hl y (by simp)) (fun y' hy' => hl y' (by simp [hy'])) hop.1 hop.2)

include R in
theorem Proper.dens_clear {m : List Node} {z : Spot} (hm : ∀ y ∈ m, S.Fit y) (hz : z.1 ∈ S.Fs.map (·.1)) (h2 : S.Clear m z) (s : ℕ) : 0 ≤ S.dens m z s := by
  have hE : ∀ l : List Node, (∀ y ∈ l, S.Fit y) → S.Hops S.eye l → 0 ≤ S.eyesR l := fun l hl hop => by
    cases l with
    | nil => exact zero_le_one
    | cons y l => exact mul_nonneg (mul_nonneg (mul_nonneg (R.We _) (facing_nonneg _ _)) (R.pick (hl y (by simp)) hop.1).le) (R.links_nonneg (hl y (by simp)) (fun y' hy' => hl y' (by simp [hy'])) hop.1 hop.2)
  cases s with
  | zero =>
    refine mul_nonneg (hE m hm h2.there) ?_
    rcases List.eq_nil_or_concat m with rfl | ⟨m', x, rfl⟩
    · exact mul_nonneg (R.We _) (facing_nonneg _ _)
    · rw [List.concat_eq_append] at hm h2 ⊢
      have hx := (hops_append.mp h2.there).2.1
      have hl := h2.last
      rw [lastP_snoc] at hl
      have hgo := R.go (hm x (by simp)) hx hl
      cases m' with
      | nil => exact hgo
      | cons y m' =>
        show 0 ≤ S.lastR S.eye y (m' ++ [x]) z
        rw [lastR_snoc]
        exact hgo
  | succ s =>
    simp only [dens]
    split_ifs with hs
    · have hL : ∀ l : List Node, (∀ y ∈ l, S.Fit y) → S.Hops z.2 l → 0 ≤ S.lampsR z l := fun l hl hop => by
        cases l with
        | nil => exact R.pA _ hz
        | cons y l => exact mul_nonneg (mul_nonneg (R.pA _ hz) (mul_nonneg (mul_nonneg (mul_nonneg (R.PL _ hz _ _) (cos_nonneg _ _)) (facing_nonneg _ _)) (R.pick (hl y (by simp)) hop.1).le)) (R.links_nonneg (hl y (by simp)) (fun y' hy' => hl y' (by simp [hy'])) hop.1 hop.2)
      refine mul_nonneg (hL _ (fun y hy => hm y (List.mem_of_mem_drop (List.mem_reverse.mp hy))) ?_) (hE _ (fun y hy => hm y (List.mem_of_mem_take hy)) (h2.there.take _))
      have : (m.drop (m.length - s)).reverse = m.reverse.take s := by rw [List.take_reverse]
      rw [this]
      exact h2.back.take s
    · exact le_rfl

include R in
theorem Proper.dens_nonneg {i : Fin 3} {m : List Node} {z : Spot} (hm : ∀ y ∈ m, S.Fit y) (hz : z.1 ∈ S.Fs.map (·.1)) (hw : S.whole i m z ≠ 0) (s : ℕ) : 0 ≤ S.dens m z s :=
  R.dens_clear hm hz (whole_ne hw).2 s

include R in
/-- The shares of the combined strategies add up to 1. -/
theorem Proper.share_sum {i : Fin 3} {m : List Node} {z : Spot} (hm : ∀ y ∈ m, S.Fit y) (hz : z.1 ∈ S.Fs.map (·.1)) : ∑ s ∈ Finset.range (m.length + 2), S.share (S.heur true) m z s * S.whole i m z = S.whole i m z := by
  by_cases hw : S.whole i m z = 0
  · rw [hw]; simp
  · obtain ⟨a, b⟩ := R.eye_pos hm hw
    have h0 : 0 < S.dens m z 0 := mul_pos a b
    have hsum : 0 < ∑ k ∈ Finset.range (m.length + 3), S.dens m z k ^ 2 := Finset.sum_pos' (fun k _ => sq_nonneg _) ⟨0, by simp, pow_pos h0 2⟩
    have key : ∀ s, S.share (S.heur true) m z s = ENNReal.ofReal (S.dens m z s ^ 2 / ∑ k ∈ Finset.range (m.length + 3), S.dens m z k ^ 2) := fun s => by
      unfold share
      by_cases hs : 0 < S.dens m z s
      · rw [if_pos hs]; rfl
      · rw [if_neg hs, le_antisymm (not_lt.mp hs) (R.dens_nonneg hm hz hw s)]; simp
    rw [← Finset.sum_mul]
    simp_rw [key]
    rw [← ENNReal.ofReal_sum_of_nonneg fun s _ => div_nonneg (sq_nonneg _) hsum.le, ← Finset.sum_div]
    rw [Finset.sum_range_succ _ (m.length + 2), dens_beyond] at hsum ⊢
    rw [zero_pow two_ne_zero, add_zero] at hsum ⊢
    rw [div_self hsum.ne', ENNReal.ofReal_one, one_mul]

end Site

end LM.Transport
