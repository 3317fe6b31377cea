import Verif.Props.C88_Drive
import Verif.Props.C51_Weight
/-
  C88: the densities from which renderer::bdptopt computes its weights leave out the probabilities of the components.
-/
namespace LM.Transport
open MeasureTheory LM LM.Surface LM.Material LM.Light LM.MathF LM.Path LM.Render LM.Solid LM.Chain Set
open scoped ENNReal

namespace Site
variable {S : Site} {W : World} {n : Int} {cam : Camera} {H : ℝ × ℝ → ℝ≥0∞}

/-- The site with all probabilities of components 1. -/
def bare (S : Site) : Site := { S with pc := fun _ _ _ _ => 1 }

/-- The probabilities of the components of the points, reached from o. -/
noncomputable def picks (S : Site) : V3 ℝ → List Node → ℝ
  | _, [] => 1
  | o, y :: l => S.pickR o y * picks S y.1.2 l

theorem linksR_bare (w : V3 ℝ) (x : Node) (l : List Node) : S.linksR w x l = S.picks x.1.2 l * S.bare.linksR w x l := by
  induction l generalizing w x with
  | nil => simp [linksR, picks]
  | cons y l ih =>
    have e : S.bare.linkR w x y = S.goR w x y.1 := mul_one _
    simp only [linksR, picks, linkR] at ih e ⊢
    rw [ih, e]
    ring

theorem eyesR_bare (l : List Node) : S.eyesR l = S.picks S.eye l * S.bare.eyesR l := by
  cases l with
  | nil => simp [eyesR, picks]
  | cons y l =>
    have e : S.bare.eyeR y.1 * S.bare.pickR S.bare.eye y = S.eyeR y.1 := mul_one _
    simp only [eyesR, picks]
    rw [linksR_bare, e]
    show _ = _ * (_ * S.bare.linksR S.eye y l)
    ring

theorem lampsR_bare (z : Spot) (l : List Node) : S.lampsR z l = S.picks z.2 l * S.bare.lampsR z l := by
  cases l with
  | nil => simp [lampsR, picks]; rfl
  | cons y l =>
    have e : S.bare.lampR z y.1 * S.bare.pickR z.2 y = S.lampR z y.1 := mul_one _
    simp only [lampsR, picks]
    rw [linksR_bare, e]
    show _ = _ * (S.pA z.1 * _ * _)
    ring

theorem reachR_bare (m : List Node) (z : Spot) : S.bare.reachR m z = S.reachR m z := by
  cases m with
  | nil => rfl
  | cons y m =>
    show S.bare.lastR S.eye y m z = S.lastR S.eye y m z
    generalize S.eye = w
    induction m generalizing w y with
    | nil => rfl
    | cons x m ih => exact ih _ _

theorem Proper.picks_pos (V : S.Proper) {o : V3 ℝ} {l : List Node} (hl : ∀ y ∈ l, S.Fit y) (hop : S.Hops o l) : 0 < S.picks o l := by
  induction l generalizing o with
  | nil => exact one_pos
  | cons y l ih => exact mul_pos (V.pick (hl y (by simp)) hop.1) (ih (fun x hx => hl x (by simp [hx])) hop.2)

/-- The density of a full path is a positive multiple of the density without the probabilities of the components. -/
theorem Proper.dens_bare (V : S.Proper) {m : List Node} {z : Spot} (hm : ∀ y ∈ m, S.Fit y) (h2 : S.Clear m z) (s : ℕ) : ∃ q, 0 < q ∧ S.dens m z s = q * S.bare.dens m z s := by
  cases s with
  | zero =>
    refine ⟨S.picks S.eye m, V.picks_pos hm h2.there, ?_⟩
    simp only [dens]
    rw [eyesR_bare, reachR_bare, mul_assoc]
  | succ s =>
    have : (m.drop (m.length - s)).reverse = m.reverse.take s := by rw [List.take_reverse]
    refine ⟨S.picks z.2 (m.drop (m.length - s)).reverse * S.picks S.eye (m.take (m.length - s)), mul_pos (V.picks_pos (fun y hy => hm y (List.mem_of_mem_drop (List.mem_reverse.mp hy))) (by rw [this]; exact h2.back.take s))
      (V.picks_pos (fun y hy => hm y (List.mem_of_mem_take hy)) (h2.there.take _)), ?_⟩
    simp only [dens]
    split_ifs
    · rw [eyesR_bare, lampsR_bare]
      ring
    · rw [mul_zero]

theorem Proper.bare_nonneg (V : S.Proper) {m : List Node} {z : Spot} (hm : ∀ y ∈ m, S.Fit y) (hz : z.1 ∈ S.Fs.map (·.1)) (h2 : S.Clear m z) (s : ℕ) : 0 ≤ S.bare.dens m z s := by
  obtain ⟨q, hq, e⟩ := V.dens_bare hm h2 s
  have := V.dens_clear hm hz h2 s
  rw [e] at this
  exact nonneg_of_mul_nonneg_right this hq

theorem Proper.bare_pos (V : S.Proper) {m : List Node} {z : Spot} (hm : ∀ y ∈ m, S.Fit y) (h2 : S.Clear m z) {s : ℕ} : 0 < S.bare.dens m z s ↔ 0 < S.dens m z s := by
  obtain ⟨q, hq, e⟩ := V.dens_bare hm h2 s
  rw [e]
  exact ⟨mul_pos hq, fun h => pos_of_mul_pos_right h hq.le⟩

/-- The balance heuristic over the strategies that can sample the path, from densities without the probabilities of the components. -/
noncomputable def bal (S : Site) : Weights := fun m z s => S.bare.dens m z s / ∑ k ∈ Finset.range (m.length + 2), S.bare.dens m z k

theorem Sound.bare (h : S.Sound) : S.bare.Sound where
  faceted := h.faceted
  flat := h.flat
  normal := h.normal
  f := h.f
  P := h.P
  pc := fun _ _ => measurable_const
  We := h.We
  film := h.film
  Le := h.Le
  PL := h.PL

theorem Sound.m_bal (h : S.Sound) : S.bal.Meas := by
  intro s
  have hd : ∀ k, Measurable fun q : List Node × Spot => S.bare.dens q.1 q.2 k := fun k => h.bare.m_dens measurable_fst measurable_snd k
  unfold bal
  refine (hd s).div ?_
  have hF : Measurable fun q : ℕ × (List Node × Spot) => ∑ k ∈ Finset.range (q.1 + 2), S.bare.dens q.2.1 q.2.2 k :=
    measurable_from_prod_countable_right fun N => Finset.measurable_fun_sum (Finset.range (N + 2)) fun k _ => hd k
  have hn : Measurable fun a : List Node × Spot => (a.1.length, a) := (measurable_length.comp measurable_fst).prodMk measurable_id
  have := hF.comp hn
  simpa only [Function.comp_def] using this

/-- The shares of the strategies add up to 1. -/
theorem Proper.share_bal (V : S.Proper) {i : Fin 3} {m : List Node} {z : Spot} (hm : ∀ y ∈ m, S.Fit y) (hz : z.1 ∈ S.Fs.map (·.1)) : ∑ s ∈ Finset.range (m.length + 2), S.share S.bal m z s * S.whole i m z = S.whole i m z := by
  by_cases hw : S.whole i m z = 0
  · rw [hw]; simp
  · have h2 := (whole_ne hw).2
    obtain ⟨a, b⟩ := V.eye_pos hm hw
    have h0 : 0 < S.bare.dens m z 0 := (V.bare_pos hm h2).mpr (mul_pos a b)
    have hn := fun k => V.bare_nonneg hm hz h2 k
    have hsum : 0 < ∑ k ∈ Finset.range (m.length + 2), S.bare.dens m z k := Finset.sum_pos' (fun k _ => hn k) ⟨0, by simp, h0⟩
    have key : ∀ s, S.share S.bal m z s = ENNReal.ofReal (S.bare.dens m z s / ∑ k ∈ Finset.range (m.length + 2), S.bare.dens m z k) := fun s => by
      unfold share
      simp only [← V.bare_pos hm h2]
      by_cases hs : 0 < S.bare.dens m z s
      · rw [if_pos hs]; rfl
      · rw [if_neg hs, le_antisymm (not_lt.mp hs) (hn s)]; simp
    rw [← Finset.sum_mul]
    simp_rw [key]
    rw [← ENNReal.ofReal_sum_of_nonneg fun s _ => div_nonneg (hn s) hsum.le, ← Finset.sum_div, div_self hsum.ne', ENNReal.ofReal_one, one_mul]

theorem Proper.part_bal (V : S.Proper) (h : S.Sound) (i : Fin 3) (j : ℕ) : ∑ s ∈ Finset.range (j + 2), S.part S.bal i s j = S.through i j := by
  have hg : ∀ s, Measurable fun q : List Node × Spot => S.share S.bal q.1 q.2 s * S.whole i q.1 q.2 := fun s => (h.m_share h.m_bal s measurable_fst measurable_snd).mul (h.m_whole i measurable_fst measurable_snd)
  unfold part
  rw [← lintegral_finsetSum (Finset.range (j + 2)) fun s _ => (hg s).lintegral_prod_right']
  refine lintegral_congr_ae ?_
  filter_upwards [paths_ae S.area area_fit j, ae_length S.area j] with m hm hl
  have hgm : ∀ s, Measurable fun z => S.share S.bal m z s * S.whole i m z := fun s => (hg s).comp measurable_prodMk_left
  rw [← lintegral_finsetSum (Finset.range (j + 2)) fun s _ => hgm s]
  exact lintegral_congr_ae (face_ae.mono fun _ hz => by rw [← hl]; exact V.share_bal hm hz)

/-! ### The densities of the renderer -/

/-- An interaction at the point z. -/
structure At (S : Site) (v : Vert) (z : Spot) : Prop where
  p : v.sp.geom.p = z.2
  n : v.sp.geom.n = S.nrm z
  infinite : v.sp.geom.infinite = false
  degenerated : v.sp.geom.degenerated = false

theorem Lit.at {v : Vert} {z : Spot} (hz : S.Lit v z) : S.At v z := ⟨hz.p, hz.n, hz.infinite, hz.degenerated⟩
theorem Sound.at' (h : S.Sound) (y : Node) : S.At (S.toVert y) y.1 := ⟨(h.at y).1, (h.at y).2.2.2, (h.at y).2.1, (h.at y).2.2.1⟩

theorem At.term {u v : Vert} {z : Spot} (hu : u.sp.geom.infinite = false) (hv : S.At v z) (hne : u.sp.geom.p ≠ z.2) :
    direction (some u) (some v) = some (dirOf (z.2 - u.sp.geom.p)) ∧ geometryTerm u.sp.geom v.sp.geom = some (slope u.sp.geom (dirOf (z.2 - u.sp.geom.p)) * S.facing u.sp.geom.p z) := by
  have e := direction_of hu hv.infinite (by rw [hv.p]; exact hne)
  have e2 := term_of hu hv.infinite (by rw [hv.p]; exact hne)
  rw [hv.p] at e e2
  refine ⟨e, e2.trans ?_⟩
  simp [slope, hv.degenerated, hv.n, facing]

variable (h : S.Sound) (T : S.Told W n cam)

include h T in
/-- Going on from a point of a surface. -/
theorem dens_node {a b : List Vert} {u v : Vert} {x : Node} {w : V3 ℝ} {z : Spot} (hu : u.sp.geom.infinite = false) (hw : u.sp.geom.p = w) (hx : S.Fit x) (hop : S.Hop w x.1) (hv : S.At v z) (hne : x.1.2 ≠ z.2) :
    LM.Path.dens W (a ++ u :: S.toVert x :: v :: b) (a.length + 2) = some (S.goR w x z) := by
  obtain ⟨e0, e1, e2⟩ := look (us := a ++ u :: S.toVert x :: v :: b) rfl
  have hux : S.toVert x ≠ S.toVert x ∨ True := .inr trivial
  have hdu := (direction_node h hu (y := x) (by rw [hw]; exact hop.1)).2
  rw [hw] at hdu
  obtain ⟨hdv, hG⟩ := At.term (S := S) (h.at x).2.1 hv (by rw [(h.at x).1]; exact hne)
  rw [(h.at x).1] at hdv hG
  have hp : pdfDirection W (S.toVert x).sp (dirOf (w - x.1.2)) (dirOf (z.2 - x.1.2)) (S.toVert x).comp false = some (S.P x.1.1 x.2 x.1.2 (dirOf (w - x.1.2)) (dirOf (z.2 - x.1.2))) :=
    T.pdf x.1.1 hx.1 x.2 hx.2 x.1.2 _ _ (unit_to hop.1.symm) (unit_to hne) hop.2
  simp only [LM.Path.dens, e1, e2, Option.bind_eq_bind, Option.bind_some, if_neg (Nat.succ_ne_zero a.length), Nat.add_sub_cancel, e0, hdu, hdv, if_true, hp, convertToArea, hG, Option.map_some]
  rw [slope_node h]
  congr 1
  unfold goR cosAt
  ring

include h T in
theorem dens_eye {m : List Node} (hm : S.Hops S.eye m) (hfit : ∀ y ∈ m, S.Fit y) {v : Vert} {z : Spot} (hv : S.At v z) (hne : lastP S.eye m ≠ z.2) (b : List Vert) :
    LM.Path.dens W (camV W n cam :: (m.map S.toVert ++ v :: b)) (m.length + 1) = some (S.reachR m z) := by
  rcases List.eq_nil_or_concat m with rfl | ⟨m', x, rfl⟩
  · obtain ⟨hd, hG⟩ := At.term (S := S) (u := camV W n cam) rfl hv (by rw [camV_geom.2.2, T.position]; exact hne)
    rw [camV_geom.2.2, T.position] at hd hG
    have hc : isConnectableEndpoint W (camV W n cam).sp = some true := by simp [isConnectableEndpoint, camV, camVertex, T.cameraAt]
    have hp : pdfDirection W (camV W n cam).sp 0 (dirOf (z.2 - S.eye)) (camV W n cam).comp false = some (S.We (dirOf (z.2 - S.eye))) := by simp [pdfDirection, camV, camVertex, T.cameraAt, T.camera]
    have hn : direction (some (camV W n cam)) none = some 0 := rfl
    have hs : slope (camV W n cam).sp.geom (dirOf (z.2 - S.eye)) = 1 := by simp [slope, camV_geom.2.1]
    simp only [LM.Path.dens, List.map_nil, List.nil_append, List.length_nil, List.getElem?_cons_zero, List.getElem?_cons_succ, Option.bind_eq_bind, Option.bind_some, if_true, hn, hd, hc, hp, convertToArea, hG, Option.map_some, hs, one_mul]
    rfl
  · rw [List.concat_eq_append] at hm hfit hne ⊢
    rw [lastP_snoc] at hne
    have hop := (hops_append.mp hm).2.1
    have hx := hfit x (by simp)
    have hr : S.reachR (m' ++ [x]) z = S.goR (lastP S.eye m') x z := by
      cases m' with
      | nil => rfl
      | cons y m' => exact lastR_snoc S.eye y m' x z
    rw [hr]
    rcases List.eq_nil_or_concat m' with rfl | ⟨m'', w, rfl⟩
    · exact dens_node h T (a := []) (u := camV W n cam) rfl (by rw [camV_geom.2.2, T.position]; rfl) hx hop hv hne
    · rw [List.concat_eq_append] at hop ⊢
      have := dens_node h T (a := camV W n cam :: m''.map S.toVert) (b := b) (u := S.toVert w) (w := lastP S.eye (m'' ++ [w])) (h.at w).2.1 (by rw [(h.at w).1, lastP_snoc]) hx hop hv hne
      simpa using this

include h T in
theorem dens_lamp {zv : Vert} {z : Spot} (hz : S.Lit zv z) {L : Light} (hL : W.lightAt z.1 = some L) {y : Node} (hne : z.2 ≠ y.1.2) (b : List Vert) :
    LM.Path.dens W (zv :: S.toVert y :: b) 1 = some (S.lampR z y.1) := by
  obtain ⟨-, hpd, -, hconn, -⟩ := T.lamp zv z hz L hL
  obtain ⟨hd, hG⟩ := At.term (S := S) hz.infinite (h.at' y) (by rw [hz.p]; exact hne)
  rw [hz.p] at hd hG
  have hc : isConnectableEndpoint W zv.sp = some true := by simp [isConnectableEndpoint, hz.kind, hz.primitive, hL, hconn]
  have hp : pdfDirection W zv.sp 0 (dirOf (y.1.2 - z.2)) zv.comp false = some (S.PL z.1 z.2 (dirOf (y.1.2 - z.2))) := by simp [pdfDirection, hz.kind, hz.primitive, hL, hpd]
  have hn : direction (some zv) none = some 0 := rfl
  have hs : slope zv.sp.geom (dirOf (y.1.2 - z.2)) = S.cosAt z y.1.2 := by simp [slope, hz.degenerated, hz.n, cosAt]
  simp only [LM.Path.dens, List.getElem?_cons_zero, List.getElem?_cons_succ, Option.bind_eq_bind, Option.bind_some, if_true, hn, hd, hc, hp, convertToArea, hG, Option.map_some, hs]
  congr 1
  unfold lampR
  ring

include h T in
theorem prod_eye {m : List Node} (hm : S.Hops S.eye m) (hfit : ∀ y ∈ m, S.Fit y) (b : List Vert) : prodDens W (camV W n cam :: (m.map S.toVert ++ b)) (m.length + 1) = some (S.bare.eyesR m) := by
  induction m using List.reverseRecOn generalizing b with
  | nil =>
    have hc : isConnectableEndpoint W (camV W n cam).sp = some true := by simp [isConnectableEndpoint, camV, camVertex, T.cameraAt]
    have hp : pdfPosition W (camV W n cam).sp = some 1 := by simp [pdfPosition, camV, camVertex, T.cameraAt]
    simp [prodDens, LM.Path.dens, hc, hp, eyesR]
  | append_singleton m y ih =>
    obtain ⟨h1, h2⟩ := hops_append.mp hm
    have e : camV W n cam :: ((m ++ [y]).map S.toVert ++ b) = camV W n cam :: (m.map S.toVert ++ S.toVert y :: b) := by simp
    rw [e, List.length_append, List.length_singleton, prodDens, ih h1 (fun x hx => hfit x (by simp [hx])) _, dens_eye h T h1 (fun x hx => hfit x (by simp [hx])) (h.at' y) h2.1.1 b]
    simp only [Option.bind_eq_bind, Option.bind_some]
    rw [eyesR_snoc, reachR_bare]
    exact congrArg some (congrArg _ (mul_one _).symm)

include h T in
theorem prod_lamp {zv : Vert} {z : Spot} (hz : S.Lit zv z) {L : Light} (hL : W.lightAt z.1 = some L) {l : List Node} (hl : S.Hops z.2 l) (hfit : ∀ y ∈ l, S.Fit y) (b : List Vert) : prodDens W (zv :: (l.map S.toVert ++ b)) (l.length + 1) = some (S.bare.lampsR z l) := by
  induction l using List.reverseRecOn generalizing b with
  | nil =>
    obtain ⟨-, -, hpos, hconn, -⟩ := T.lamp zv z hz L hL
    have hc : isConnectableEndpoint W zv.sp = some true := by simp [isConnectableEndpoint, hz.kind, hz.primitive, hL, hconn]
    simp [prodDens, LM.Path.dens, hc, hpos, lampsR]
    rfl
  | append_singleton l y ih =>
    obtain ⟨h1, h2⟩ := hops_append.mp hl
    have e : zv :: ((l ++ [y]).map S.toVert ++ b) = zv :: (l.map S.toVert ++ S.toVert y :: b) := by simp
    rw [e, List.length_append, List.length_singleton, prodDens, ih h1 (fun x hx => hfit x (by simp [hx])) _]
    rcases List.eq_nil_or_concat l with rfl | ⟨l', x, rfl⟩
    · have := dens_lamp h T hz hL (y := y) h2.1.1 b
      simp only [List.map_nil, List.nil_append, List.length_nil, zero_add, Option.bind_eq_bind, Option.bind_some, this]
      refine congrArg some ?_
      show S.pA z.1 * S.lampR z y.1 = S.pA z.1 * (S.lampR z y.1 * 1) * 1
      ring
    · rw [List.concat_eq_append] at h1 h2 hfit ⊢
      have hd : LM.Path.dens W (zv :: ((l' ++ [x]).map S.toVert ++ S.toVert y :: b)) ((l' ++ [x]).length + 1) = some (S.goR (lastP z.2 l') x y.1) := by
        have hx := hfit x (by simp)
        have hop := (hops_append.mp h1).2.1
        have hne := h2.1.1
        rw [lastP_snoc] at hne
        rcases List.eq_nil_or_concat l' with rfl | ⟨l'', w, rfl⟩
        · exact dens_node h T (a := []) (u := zv) hz.infinite hz.p hx hop (h.at' y) hne
        · rw [List.concat_eq_append] at hop ⊢
          have := dens_node h T (a := zv :: l''.map S.toVert) (b := b) (u := S.toVert w) (w := lastP z.2 (l'' ++ [w])) (h.at w).2.1 (by rw [(h.at w).1, lastP_snoc]) hx hop (h.at' y) hne
          simpa using this
      simp only [hd, Option.bind_eq_bind, Option.bind_some]
      refine congrArg some ?_
      rw [lampsR_snoc2]
      exact congrArg _ (mul_one _).symm

include h T in
/-- The densities of the strategies, of which the renderer computes the ratios. -/
theorem strat_bare {zv : Vert} {z : Spot} (hz : S.Lit zv z) {L : Light} (hL : W.lightAt z.1 = some L) {m : List Node} (hm : S.Clear m z) (hfit : ∀ y ∈ m, S.Fit y) {k : ℕ} (hk : k ≤ m.length + 1) :
    stratDens W (S.pathOf W n cam zv m) k = some (S.bare.dens m z k) := by
  have eL : S.pathOf W n cam zv m = zv :: (m.reverse.map S.toVert ++ [camV W n cam]) := pathOf_LE (S := S) (W := W) (n := n) (cam := cam) zv m
  have eE : (S.pathOf W n cam zv m).reverse = camV W n cam :: (m.map S.toVert ++ [zv]) := pathOf_EL (S := S) (W := W) (n := n) (cam := cam) zv m
  have hlen := pathOf_length (S := S) (W := W) (n := n) (cam := cam) zv m
  unfold stratDens
  rw [hlen]
  cases k with
  | zero =>
    have e1 : prodDens W (S.pathOf W n cam zv m).reverse (m.length + 2 - 0) = some (S.bare.eyesR m * S.reachR m z) := by
      rw [eE, Nat.sub_zero, prodDens, prod_eye h T hm.there hfit, dens_eye h T hm.there hfit hz.at hm.last]
      rfl
    rw [e1]
    simp only [prodDens, Option.bind_eq_bind, Option.bind_some, one_mul]
    refine congrArg some ?_
    simp only [Site.dens]
    rw [reachR_bare]
  | succ s =>
    have hs : s ≤ m.length := by omega
    have er : (m.drop (m.length - s)).reverse = m.reverse.take s := by rw [List.take_reverse]
    have e1 : prodDens W (S.pathOf W n cam zv m) (s + 1) = some (S.bare.lampsR z (m.drop (m.length - s)).reverse) := by
      have := prod_lamp h T hz hL (l := m.reverse.take s) (hm.back.take s) (fun y hy => hfit y (List.mem_reverse.mp (List.mem_of_mem_take hy))) ((m.reverse.drop s).map S.toVert ++ [camV W n cam])
      rw [← List.append_assoc, ← List.map_append, List.take_append_drop, ← eL, List.length_take, List.length_reverse, min_eq_left hs] at this
      rw [this, er]
    have e2 : prodDens W (S.pathOf W n cam zv m).reverse (m.length + 2 - (s + 1)) = some (S.bare.eyesR (m.take (m.length - s))) := by
      have := prod_eye h T (m := m.take (m.length - s)) (hm.there.take _) (fun y hy => hfit y (List.mem_of_mem_take hy)) ((m.drop (m.length - s)).map S.toVert ++ [zv])
      rw [← List.append_assoc, ← List.map_append, List.take_append_drop, ← eE, List.length_take, min_eq_left (by omega)] at this
      rw [show m.length + 2 - (s + 1) = m.length - s + 1 by omega, this]
    rw [e1, e2]
    simp only [Option.bind_eq_bind, Option.bind_some, Site.dens, if_pos hs]
    rfl

end Site
end LM.Transport
