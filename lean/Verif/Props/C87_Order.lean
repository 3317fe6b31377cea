import Verif.Props.C87_Path
/-
  C87: the contributions of the paths with k points are the light scattered k times.
-/
namespace LM.Transport
open MeasureTheory LM LM.Surface LM.Material LM.Light LM.MathF LM.Path LM.Render LM.Solid LM.Chain Set
open scoped ENNReal

theorem lintegral_surf' {Fs : List (Int × Tri)} (f : Spot → ℝ≥0∞) : ∫⁻ x, f x ∂surf Fs = (Fs.map fun g => ∫⁻ p, f (g.1, p) ∂triMeasure g.2).sum := by
  unfold surf
  rw [lintegral_map_sum]
  refine congrArg List.sum (List.map_congr_left fun g _ => ?_)
  exact (measurableEmbedding_prodMk_left g.1).lintegral_map _

theorem surf_ae {Fs : List (Int × Tri)} {P : Spot → Prop} (h : ∀ g ∈ Fs, ∀ᵐ p ∂triMeasure g.2, P (g.1, p)) : ∀ᵐ y ∂surf Fs, P y := by
  refine ae_map_sum _ _ _ fun g hg => ?_
  exact ((measurableEmbedding_prodMk_left g.1).ae_map_iff).mpr (h g hg)

instance surf_sfinite (Fs : List (Int × Tri)) : SFinite (surf Fs) := by
  unfold surf
  induction Fs with
  | nil => simp only [List.map_nil, List.sum_nil]; infer_instance
  | cons g l ih => simp only [List.map_cons, List.sum_cons]; infer_instance

namespace Site
variable {S : Site}

attribute [local irreducible] kern

/-- The components at each point. -/
theorem area_surf {F : Node → ℝ≥0∞} (hF : Measurable F) : ∫⁻ y, F y ∂S.area = ∫⁻ x, ∑ c ∈ S.C x.1, F (x, c) ∂surf S.Fs := by
  rw [lintegral_area, lintegral_surf']
  refine congrArg List.sum (List.map_congr_left fun g _ => ?_)
  exact (lintegral_finsetSum _ fun c _ => hF.comp (embedding_node g.1 c).measurable).symm

theorem Sound.facing_geo (h : S.Sound) {g : Int × Tri} (hg : g ∈ S.Fs) {o p : V3 ℝ} (hp : Inside g.2 p) : ENNReal.ofReal (S.facing o (g.1, p)) = geo g.2 o p := by
  unfold facing geo nrm
  dsimp only
  rw [h.flat g.1 (List.mem_map.mpr ⟨g, hg, rfl⟩) p]
  rcases h.faceted.normal g hg p hp with e | e
  · rw [e]
  · rw [e, V3.dot_comm, V3.dot_neg_right, abs_neg, V3.dot_comm]

open Classical in
/-- Integrals over directions, of functions of what is seen. -/
theorem Sound.over (h : S.Sound) (o : V3 ℝ) {F : Spot → V3 ℝ → ℝ≥0∞} (hF : Adjoint.Meas F) :
    ∫⁻ d, (match hitOf S.Q o d with | none => 0 | some x => F x d) ∂solidAngle = ∫⁻ x, (if Sees S.Q o x.1 x.2 then ENNReal.ofReal (S.facing o x) * F x (dirOf (x.2 - o)) else 0) ∂surf S.Fs := by
  refine (h.faceted.over o (F := F) fun j => hF.pin j).trans ?_
  rw [lintegral_surf']
  refine congrArg List.sum (List.map_congr_left fun g hg => lintegral_congr_ae ((inside_ae g.2).mono fun p hp => ?_))
  beta_reduce
  rw [h.facing_geo hg hp]
  split_ifs <;> simp

variable (S)

/-- The light that a point emits. -/
noncomputable def emit (i : Fin 3) (x : Spot) (w : V3 ℝ) : ℝ≥0∞ := ENNReal.ofReal (chan i (S.Le x.1 x.2 w))

/-- The light that arrives after k scatterings. -/
noncomputable def order (i : Fin 3) : ℕ → Spot → V3 ℝ → ℝ≥0∞
  | 0 => Adjoint.back (fun x d => hitOf S.Q x.2 d) (S.emit i)
  | k + 1 => Adjoint.back (fun x d => hitOf S.Q x.2 d) (Adjoint.scat solidAngle (kernel S.vertex S.C S.f i .EL) (order i k))

variable {S}

theorem Sound.m_emit (h : S.Sound) (i : Fin 3) : Adjoint.Meas (S.emit i) := ((measurable_chan i).comp h.m_Le).ennreal_ofReal

theorem Sound.m_kernel (h : S.Sound) (i : Fin 3) : Measurable fun q : Spot × V3 ℝ × V3 ℝ => kernel S.vertex S.C S.f i .EL q.1 q.2.1 q.2.2 := by
  refine measurable_of_spot (F := fun q : Spot × V3 ℝ × V3 ℝ => kernel S.vertex S.C S.f i .EL q.1 q.2.1 q.2.2) fun j => ?_
  have e : (fun q : V3 ℝ × V3 ℝ × V3 ℝ => kernel S.vertex S.C S.f i .EL (j, q.1) q.2.1 q.2.2) = fun q => ∑ c ∈ S.C j, kern S.vertex S.f i .EL c (j, q.1) q.2.1 q.2.2 := funext fun q => rfl
  rw [show (fun q : V3 ℝ × V3 ℝ × V3 ℝ => kernel S.vertex S.C S.f i .EL ((j, q.1), q.2).1 ((j, q.1), q.2).2.1 ((j, q.1), q.2).2.2) = _ from e]
  exact Finset.measurable_fun_sum (S.C j) fun c _ => (h.m_kern i .EL).comp (((measurable_const.prodMk measurable_fst).prodMk measurable_const).prodMk measurable_snd)

theorem Sound.m_order (h : S.Sound) (i : Fin 3) (k : ℕ) : Adjoint.Meas (S.order i k) := by
  induction k with
  | zero => exact h.faceted.measurable_back (h.m_emit i)
  | succ k ih => exact h.faceted.measurable_back (Adjoint.Meas.scat (h.m_kernel i) ih)

theorem Sound.m_kern_from (h : S.Sound) (i : Fin 3) (x : Node) (wi : V3 ℝ) : Measurable fun d => kern S.vertex S.f i .EL x.2 x.1 wi d :=
  measurable_at3 (K := fun x a b => kern S.vertex S.f i .EL x.2 x.1 a b) (h.m_kern i .EL) (measurable_const (a := x)) (measurable_const (a := wi)) measurable_id

theorem Sound.scat_sum (h : S.Sound) (i : Fin 3) {G : Spot → V3 ℝ → ℝ≥0∞} (hG : Adjoint.Meas G) (x : Spot) (wi : V3 ℝ) :
    Adjoint.scat solidAngle (kernel S.vertex S.C S.f i .EL) G x wi = ∑ c ∈ S.C x.1, ∫⁻ d, kern S.vertex S.f i .EL c x wi d * G x d ∂solidAngle := by
  unfold Adjoint.scat kernel
  simp_rw [Finset.sum_mul]
  exact lintegral_finsetSum _ fun c _ => (h.m_kern_from i (x, c) wi).mul (hG.from x)

open Classical in
/-- The light at o from direction d, weighted with K: by area. -/
theorem Sound.gather (h : S.Sound) (x : Spot) {K : V3 ℝ → ℝ≥0∞} (hK : Measurable K) {F : Spot → V3 ℝ → ℝ≥0∞} (hF : Adjoint.Meas F) :
    ∫⁻ d, K d * Adjoint.back (fun x d => hitOf S.Q x.2 d) F x d ∂solidAngle =
      ∫⁻ y, (if Sees S.Q x.2 y.1 y.2 then K (dirOf (y.2 - x.2)) * ENNReal.ofReal (S.facing x.2 y) * F y (dirOf (x.2 - y.2)) else 0) ∂surf S.Fs := by
  have hG : Adjoint.Meas fun (y : Spot) (d : V3 ℝ) => K d * F y (-d) := (hK.comp measurable_snd).mul (hF.comp (measurable_fst.prodMk (measurable_neg3.comp measurable_snd)))
  rw [show (∫⁻ d, K d * Adjoint.back (fun x d => hitOf S.Q x.2 d) F x d ∂solidAngle) = ∫⁻ d, (match hitOf S.Q x.2 d with | none => 0 | some y => K d * F y (-d)) ∂solidAngle from lintegral_congr fun d => ?_, h.over x.2 hG]
  · refine lintegral_congr fun y => ?_
    rw [dirOf_swap x.2 y.2]
    split_ifs
    · ring
    · rfl
  · unfold Adjoint.back
    dsimp only
    cases hitOf S.Q x.2 d <;> simp

theorem Sound.tail_order (h : S.Sound) (i : Fin 3) (k : ℕ) (w : V3 ℝ) (x : Node) :
    ∫⁻ l, ∫⁻ z, S.tail i w x l z ∂surf S.Fs ∂paths S.area k = ∫⁻ d, kern S.vertex S.f i .EL x.2 x.1 (dirOf (w - x.1.2)) d * S.order i k x.1 d ∂solidAngle := by
  classical
  have hm : ∀ w x, Measurable fun l : List Node => ∫⁻ z, S.tail i w x l z ∂surf S.Fs := fun w x => by
    have : Measurable fun q : List Node × Spot => S.tail i w x q.1 q.2 := h.m_tail i measurable_const measurable_const measurable_fst measurable_snd
    exact this.lintegral_prod_right'
  induction k generalizing w x with
  | zero =>
    rw [lintegral_nil _ _ (hm w x)]
    refine (lintegral_congr fun z => ?_).trans (h.gather x.1 (h.m_kern_from i x (dirOf (w - x.1.2))) (h.m_emit i)).symm
    simp only [tail, carry, emit]
  | succ k ih =>
    rw [lintegral_cons _ (hm w x)]
    have h1 : ∀ y : Node, ∫⁻ l, ∫⁻ z, S.tail i w x (y :: l) z ∂surf S.Fs ∂paths S.area k =
        if Sees S.Q x.1.2 y.1.1 y.1.2 then S.carry i w x y.1 * ∫⁻ d, kern S.vertex S.f i .EL y.2 y.1 (dirOf (x.1.2 - y.1.2)) d * S.order i k y.1 d ∂solidAngle else 0 := fun y => by
      simp only [tail]
      split_ifs with hs
      · rw [← ih x.1.2 y, ← lintegral_const_mul _ (hm _ _)]
        refine lintegral_congr fun l => ?_
        have : Measurable fun z : Spot => S.tail i x.1.2 y l z := h.m_tail i measurable_const measurable_const measurable_const measurable_id
        rw [lintegral_const_mul _ this]
      · simp
    simp_rw [h1]
    rw [area_surf]
    · refine Eq.trans ?_ (h.gather x.1 (h.m_kern_from i x (dirOf (w - x.1.2))) (Adjoint.Meas.scat (h.m_kernel i) (h.m_order i k))).symm
      refine lintegral_congr fun y => ?_
      dsimp only
      split_ifs with hs
      · rw [h.scat_sum i (h.m_order i k), ← Finset.mul_sum]
        rfl
      · simp
    · have hk : Measurable fun q : Node × V3 ℝ => kern S.vertex S.f i .EL q.1.2 q.1.1 (dirOf (x.1.2 - q.1.1.2)) q.2 :=
        measurable_at3 (K := fun x a b => kern S.vertex S.f i .EL x.2 x.1 a b) (h.m_kern i .EL) measurable_fst (measurable_dirTo (measurable_snd.comp (measurable_fst.comp measurable_fst)) measurable_const) measurable_snd
      have ho : Measurable fun q : Node × V3 ℝ => S.order i k q.1.1 q.2 := (h.m_order i k).comp ((measurable_fst.comp measurable_fst).prodMk measurable_snd)
      exact Measurable.ite (h.m_seen measurable_const measurable_fst) ((h.m_carry i measurable_const measurable_const measurable_fst).mul (hk.mul ho).lintegral_prod_right') measurable_const

/-- What all paths with k points between the camera and the light contribute to the film. -/
theorem Sound.whole_order (h : S.Sound) (i : Fin 3) (k : ℕ) (j₀ : Int) :
    ∫⁻ m, ∫⁻ z, S.whole i m z ∂surf S.Fs ∂paths S.area k = ∫⁻ d, S.film d * ENNReal.ofReal (S.We d) * S.order i k (j₀, S.eye) d ∂solidAngle := by
  classical
  have hm : Measurable fun l : List Node => ∫⁻ z, S.whole i l z ∂surf S.Fs := by
    have : Measurable fun q : List Node × Spot => S.whole i q.1 q.2 := h.m_whole i measurable_fst measurable_snd
    exact this.lintegral_prod_right'
  have hW : Measurable fun d => S.film d * ENNReal.ofReal (S.We d) := h.film.mul h.We.ennreal_ofReal
  cases k with
  | zero =>
    rw [lintegral_nil _ _ hm]
    refine (lintegral_congr fun z => ?_).trans (h.gather (j₀, S.eye) hW (h.m_emit i)).symm
    simp only [whole, emit]
  | succ k =>
    rw [lintegral_cons _ hm]
    have hmt : ∀ w x, Measurable fun l : List Node => ∫⁻ z, S.tail i w x l z ∂surf S.Fs := fun w x => by
      have : Measurable fun q : List Node × Spot => S.tail i w x q.1 q.2 := h.m_tail i measurable_const measurable_const measurable_fst measurable_snd
      exact this.lintegral_prod_right'
    have h1 : ∀ y : Node, ∫⁻ l, ∫⁻ z, S.whole i (y :: l) z ∂surf S.Fs ∂paths S.area k =
        if Sees S.Q S.eye y.1.1 y.1.2 then S.film (dirOf (y.1.2 - S.eye)) * ENNReal.ofReal (S.We (dirOf (y.1.2 - S.eye))) * ENNReal.ofReal (S.facing S.eye y.1) * ∫⁻ d, kern S.vertex S.f i .EL y.2 y.1 (dirOf (S.eye - y.1.2)) d * S.order i k y.1 d ∂solidAngle else 0 := fun y => by
      simp only [whole]
      split_ifs with hs
      · rw [← h.tail_order i k S.eye y, ← lintegral_const_mul _ (hmt _ _)]
        refine lintegral_congr fun l => ?_
        have : Measurable fun z : Spot => S.tail i S.eye y l z := h.m_tail i measurable_const measurable_const measurable_const measurable_id
        rw [lintegral_const_mul _ this]
      · simp
    simp_rw [h1]
    rw [area_surf]
    · refine Eq.trans ?_ (h.gather (j₀, S.eye) hW (Adjoint.Meas.scat (h.m_kernel i) (h.m_order i k))).symm
      refine lintegral_congr fun y => ?_
      dsimp only
      split_ifs with hs
      · rw [h.scat_sum i (h.m_order i k), ← Finset.mul_sum]
      · simp
    · have hk : Measurable fun q : Node × V3 ℝ => kern S.vertex S.f i .EL q.1.2 q.1.1 (dirOf (S.eye - q.1.1.2)) q.2 :=
        measurable_at3 (K := fun x a b => kern S.vertex S.f i .EL x.2 x.1 a b) (h.m_kern i .EL) measurable_fst (measurable_dirTo (measurable_snd.comp (measurable_fst.comp measurable_fst)) measurable_const) measurable_snd
      have ho : Measurable fun q : Node × V3 ℝ => S.order i k q.1.1 q.2 := (h.m_order i k).comp ((measurable_fst.comp measurable_fst).prodMk measurable_snd)
      exact Measurable.ite (h.m_seen measurable_const measurable_fst) ((h.m_first measurable_fst).mul (hk.mul ho).lintegral_prod_right') measurable_const

/-! ### The light is the sum of its orders -/

theorem scat_add {i : Fin 3} (h : S.Sound) {F G : Spot → V3 ℝ → ℝ≥0∞} (hF : Adjoint.Meas F) (x : Spot) (w : V3 ℝ) :
    Adjoint.scat solidAngle (kernel S.vertex S.C S.f i .EL) (fun x d => F x d + G x d) x w = Adjoint.scat solidAngle (kernel S.vertex S.C S.f i .EL) F x w + Adjoint.scat solidAngle (kernel S.vertex S.C S.f i .EL) G x w := by
  unfold Adjoint.scat
  simp_rw [mul_add]
  exact lintegral_add_left ((Adjoint.from_at (h.m_kernel i) x w).mul (hF.from x)) _

theorem Sound.m_light_order (h : S.Sound) (i : Fin 3) (k : ℕ) : Adjoint.Meas (Adjoint.light (fun x d => hitOf S.Q x.2 d) solidAngle (kernel S.vertex S.C S.f i .EL) (S.emit i) k) := by
  induction k with
  | zero => exact measurable_const
  | succ k ih => exact h.faceted.measurable_back ((h.m_emit i).add (Adjoint.Meas.scat (h.m_kernel i) ih))

theorem Sound.light_succ (h : S.Sound) (i : Fin 3) (k : ℕ) (x : Spot) (d : V3 ℝ) :
    Adjoint.light (fun x d => hitOf S.Q x.2 d) solidAngle (kernel S.vertex S.C S.f i .EL) (S.emit i) (k + 1) x d =
      Adjoint.light (fun x d => hitOf S.Q x.2 d) solidAngle (kernel S.vertex S.C S.f i .EL) (S.emit i) k x d + S.order i k x d := by
  induction k generalizing x d with
  | zero =>
    simp only [Adjoint.light, order, Adjoint.back, zero_add]
    cases hitOf S.Q x.2 d with
    | none => rfl
    | some y => simp [Adjoint.scat, Adjoint.light]
  | succ k ih =>
    have e : Adjoint.light (fun x d => hitOf S.Q x.2 d) solidAngle (kernel S.vertex S.C S.f i .EL) (S.emit i) (k + 1) = fun x d =>
      Adjoint.light (fun x d => hitOf S.Q x.2 d) solidAngle (kernel S.vertex S.C S.f i .EL) (S.emit i) k x d + S.order i k x d := funext fun x => funext fun d => ih x d
    have e2 : ∀ k, Adjoint.light (fun x d => hitOf S.Q x.2 d) solidAngle (kernel S.vertex S.C S.f i .EL) (S.emit i) (k + 1) x d =
      Adjoint.back (fun x d => hitOf S.Q x.2 d) (fun y w => S.emit i y w + Adjoint.scat solidAngle (kernel S.vertex S.C S.f i .EL) (Adjoint.light (fun x d => hitOf S.Q x.2 d) solidAngle (kernel S.vertex S.C S.f i .EL) (S.emit i) k) y w) x d := fun k => rfl
    rw [e2 (k + 1), e2 k, e]
    simp only [order, Adjoint.back]
    cases hitOf S.Q x.2 d with
    | none => simp
    | some y =>
      dsimp only
      rw [scat_add h (h.m_light_order i k), add_assoc]

end Site

end LM.Transport
