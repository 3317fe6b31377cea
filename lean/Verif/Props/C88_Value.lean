import Verif.Props.C88_Bare
import Verif.Props.C88_Fixup
import Verif.Props.C87_Mix
/-
  C88: what a strategy of renderer::bdptopt adds.
-/
namespace LM.Transport
open MeasureTheory LM LM.Surface LM.Material LM.Light LM.MathF LM.Path LM.Render LM.Solid LM.Chain Set
open scoped ENNReal

namespace Site
variable {S : Site} {W : World} {n : Int} {cam : Camera} {H : ℝ × ℝ → ℝ≥0∞}
variable (h : S.Sound) (T : S.Told W n cam) (A : S.Stage W n H) (V : S.Proper)

include h T in
/-- Going on to a vertex that is anywhere else. -/
theorem dens_away {a b : List Vert} {u v : Vert} {x : Node} {w : V3 ℝ} (hu : u.sp.geom.infinite = false) (hw : u.sp.geom.p = w) (hx : S.Fit x) (hop : S.Hop w x.1) (hv : v.sp.geom.infinite = false) (hne : x.1.2 ≠ v.sp.geom.p) :
    ∃ q, LM.Path.dens W (a ++ u :: S.toVert x :: v :: b) (a.length + 2) = some q := by
  obtain ⟨e0, e1, e2⟩ := look (us := a ++ u :: S.toVert x :: v :: b) rfl
  have hdu := (direction_node h hu (y := x) (by rw [hw]; exact hop.1)).2
  rw [hw] at hdu
  have hdv := direction_of (h.at x).2.1 hv (by rw [(h.at x).1]; exact hne)
  have hG := term_of (h.at x).2.1 hv (by rw [(h.at x).1]; exact hne)
  rw [(h.at x).1] at hdv
  have hp : pdfDirection W (S.toVert x).sp (dirOf (w - x.1.2)) (dirOf (v.sp.geom.p - x.1.2)) (S.toVert x).comp false = some (S.P x.1.1 x.2 x.1.2 (dirOf (w - x.1.2)) (dirOf (v.sp.geom.p - x.1.2))) :=
    T.pdf x.1.1 hx.1 x.2 hx.2 x.1.2 _ _ (unit_to hop.1.symm) (unit_to hne) hop.2
  simp only [LM.Path.dens, e1, e2, Option.bind_eq_bind, Option.bind_some, if_neg (Nat.succ_ne_zero a.length), Nat.add_sub_cancel, e0, hdu, hdv, if_true, hp, convertToArea, hG, Option.map_some]
  exact ⟨_, rfl⟩

include h T in
/-- Going on to the camera. -/
theorem dens_camera {zv : Vert} {z : Spot} (hz : S.Lit zv z) {L : Light} (hL : W.lightAt z.1 = some L) {m : List Node} (hm : S.Clear m z) (hfit : ∀ y ∈ m, S.Fit y) :
    ∃ q, LM.Path.dens W (S.pathOf W n cam zv m) (m.length + 1) = some q := by
  have eL : S.pathOf W n cam zv m = zv :: (m.reverse.map S.toVert ++ [camV W n cam]) := pathOf_LE (S := S) (W := W) (n := n) (cam := cam) zv m
  have hcp : (camV W n cam).sp.geom.p = S.eye := by rw [camV_geom.2.2, T.position]
  rw [eL]
  cases m with
  | nil =>
    have hne : zv.sp.geom.p ≠ (camV W n cam).sp.geom.p := by rw [hcp, hz.p]; exact hm.last.symm
    obtain ⟨-, hpd, -, hconn, -⟩ := T.lamp zv z hz L hL
    have hd := direction_of (v := camV W n cam) hz.infinite rfl hne
    have hG := term_of (g' := (camV W n cam).sp.geom) hz.infinite rfl hne
    have hc : isConnectableEndpoint W zv.sp = some true := by simp [isConnectableEndpoint, hz.kind, hz.primitive, hL, hconn]
    have hp : ∀ d, pdfDirection W zv.sp 0 d zv.comp false = some (S.PL z.1 z.2 d) := fun d => by simp [pdfDirection, hz.kind, hz.primitive, hL, hpd]
    have hn : direction (some zv) none = some 0 := rfl
    simp only [LM.Path.dens, List.reverse_nil, List.map_nil, List.nil_append, List.length_nil, List.getElem?_cons_zero, List.getElem?_cons_succ, Option.bind_eq_bind, Option.bind_some, if_true, hn, hd, hc, hp, convertToArea, hG, Option.map_some]
    exact ⟨_, rfl⟩
  | cons x m =>
    have hb := hm.back
    rw [List.reverse_cons] at hb ⊢
    have hop := (hops_append.mp hb).2.1
    have hx := hfit x (by simp)
    have hne : x.1.2 ≠ (camV W n cam).sp.geom.p := by rw [hcp]; exact hm.there.1.1.symm
    rcases List.eq_nil_or_concat m.reverse with e | ⟨l, w, e⟩
    · rw [e] at hop ⊢
      have hm0 : m = [] := by simpa using e
      subst hm0
      exact dens_away h T (a := []) (b := []) (u := zv) hz.infinite hz.p hx hop rfl hne
    · rw [e, List.concat_eq_append] at hop ⊢
      have := dens_away h T (a := zv :: l.map S.toVert) (b := []) (u := S.toVert w) (v := camV W n cam) (w := lastP z.2 (l ++ [w])) (h.at w).2.1 (by rw [(h.at w).1, lastP_snoc]) hx hop rfl hne
      have hl : m.length = l.length + 1 := by
        have := congrArg List.length e
        simpa using this
      rw [List.length_cons, hl]
      simpa using this

include h T V in
/-- The weight of a strategy is the balance heuristic. -/
theorem opt_weight {L E : List CV} {s t : ℕ} (HL : Subpath W L .light) (HE : Subpath W E .camera) (hs : s ≤ L.length) (ht1 : 1 ≤ t) (ht : t ≤ E.length) {zv : Vert} {z : Spot} (hz : S.Lit zv z) (hzF : z.1 ∈ S.Fs.map (·.1)) {Lt : Light} (hLt : W.lightAt z.1 = some Lt)
    {m : List Node} (hm : S.Clear m z) (hfit : ∀ y ∈ m, S.Fit y) (hst : s + t = m.length + 2) (hvs : (fullPath L E s t).map CV.vert = S.pathOf W n cam zv m) (hd : 0 < S.dens m z s) : misWeightOpt W L E s t = some (S.bal m z s) := by
  have hsam : ∀ k ≤ s + t, isSamplable W (S.pathOf W n cam zv m) k = some (decide (k ≤ m.length + 1)) := fun k hk => T.samplable hz hLt hfit (by omega)
  have hlen := pathOf_length (S := S) (W := W) (n := n) (cam := cam) zv m
  have hsd : ∀ k ≤ m.length + 1, stratDens W (S.pathOf W n cam zv m) k = some (S.bare.dens m z k) := fun k hk => strat_bare h T hz hLt hm hfit hk
  -- the densities are defined
  have hfwd : ∀ i, i < m.length + 2 → ∃ x, LM.Path.dens W (S.pathOf W n cam zv m) i = some x := fun i hi => by
    by_cases e : i = m.length + 1
    · rw [e]; exact dens_camera h T hz hLt hm hfit
    · have := hsd (m.length + 1) le_rfl
      unfold stratDens at this
      obtain ⟨a, ha, -⟩ := bind_some this
      exact dens_of_prod ha (by omega)
  have hrev : ∀ i, i < m.length + 2 → ∃ x, LM.Path.dens W (S.pathOf W n cam zv m).reverse i = some x := fun i hi => by
    have := hsd 0 (by omega)
    unfold stratDens at this
    obtain ⟨a, -, this⟩ := bind_some this
    obtain ⟨b, hb, -⟩ := bind_some this
    rw [hlen] at hb
    exact dens_of_prod hb (by omega)
  obtain ⟨P, hP⟩ := fixup_some hs ht (by omega) ht1 HL HE hvs.symm (by rw [hsam s (by omega), decide_eq_true (by omega)]) (hfwd s (by omega)) (fun _ => hfwd _ (by omega)) (fun _ => hrev _ (by omega)) (fun _ => hrev _ (by omega))
  rw [C51_balance hs ht (by omega) HL HE P _ hP hvs.symm (fun k => decide (k ≤ m.length + 1)) hsam (decide_eq_true (by omega)) (fun k => S.bare.dens m z k)
    (fun k hk hσ => ⟨hsd k (of_decide_eq_true hσ), V.bare_nonneg hfit hzF hm k⟩) ((V.bare_pos hfit hm).mpr hd)]
  unfold bal
  congr 3
  ext k
  simp only [Finset.mem_filter, Finset.mem_range, decide_eq_true_eq]
  omega

/-! ### Connections -/

end Site

theorem samplable_join {W : World} {L E : List CV} {s t : ℕ} {vs : List Vert} (hs : 1 ≤ s) (ht : 1 ≤ t) (hlen : vs.length = s + t) (aL : ∀ i : ℕ, i < s → vertexAt vs i .LE = L[i]?.map CV.vert) (aE : ∀ j : ℕ, j < t → vertexAt vs j .EL = E[j]?.map CV.vert)
    {u v : CV} (hu : L[s - 1]? = some u) (hv : E[t - 1]? = some v) (fu : u.sp.geom.infinite = false) (fv : v.sp.geom.infinite = false) : optSamplable W L E s t = isSamplable W vs s := by
  have e1 : vertexAt vs ((s : ℤ) - 1) .LE = some u.vert := by
    rw [show (s : ℤ) - 1 = ((s - 1 : ℕ) : ℤ) by omega, aL _ (by omega), hu]; rfl
  have e2 : vertexAt vs ((vs.length : ℤ) - (s : ℤ) - 1) .EL = some v.vert := by
    rw [show (vs.length : ℤ) - (s : ℤ) - 1 = ((t - 1 : ℕ) : ℤ) by omega, aE _ (by omega), hv]; rfl
  unfold optSamplable isSamplable
  dsimp only
  rw [if_neg (by omega), if_neg (by omega), if_neg (by omega), if_neg (by omega), if_neg (by omega)]
  have e3 : ((vs.length : ℤ) - (s : ℤ) = 1) = (t = 1) := propext ⟨fun h => by omega, fun h => by omega⟩
  simp only [hu, hv, e1, e2, e3, fu, fv, Option.bind_eq_bind, Option.bind_some, Bool.or_self, Bool.false_eq_true, if_false]
  rfl

theorem raster_hit {W : World} {L E : List CV} {t : ℕ} {vs : List Vert} (HE : Subpath W E .camera) (ht : 2 ≤ t) (htE : t ≤ E.length) {v : CV} (hv : E[t - 1]? = some v) (aE : ∀ j : ℕ, j + 1 < t → vertexAt vs j .EL = E[j]?.map CV.vert)
    (hx : vertexAt vs ((t - 1 : ℕ) : ℤ) .EL = some ⟨v.sp.asType .light, v.comp⟩) : optRaster W L E 0 t = rasterOf W vs := by
  obtain ⟨x, hx0⟩ : ∃ x, E[0]? = some x := ⟨_, List.getElem?_eq_getElem (by omega)⟩
  obtain ⟨y, hy⟩ : ∃ y, E[0 + 1]? = some y := ⟨_, List.getElem?_eq_getElem (by omega)⟩
  have e0 : vertexAt vs 0 .EL = some x.vert := by have := aE 0 (by omega); rw [hx0] at this; exact_mod_cast this
  have e1 : ∃ y', vertexAt vs 1 .EL = some y' ∧ y'.sp.geom = y.sp.geom := by
    rcases Nat.lt_or_ge 2 t with h | h
    · have := aE 1 (by omega)
      rw [hy] at this
      exact ⟨y.vert, by exact_mod_cast this, rfl⟩
    · obtain rfl : t = 2 := by omega
      rw [show (2 : ℕ) - 1 = 0 + 1 from rfl, hy] at hv
      cases hv
      exact ⟨_, hx, rfl⟩
  obtain ⟨y', e1, hg⟩ := e1
  unfold optRaster rasterOf
  rw [if_neg (by omega), if_neg (by omega), e0, e1, dir_congr (a' := x.vert) (b' := y.vert) rfl hg, (HE.dir 0 x y hx0 hy).1]
  simp only [hx0, Option.bind_eq_bind, Option.bind_some]

theorem measured_scaled {i : Fin 3} {H : ℝ × ℝ → ℝ≥0∞} {k k' : Tech} {d d' : ℕ} {rp : Option (ℝ × ℝ)} {w : ℝ} (hw : 0 < w) (C : V3 ℝ) :
    measured i H (rp.bind fun r => some [⟨k, d, r, w • C⟩]) = ENNReal.ofReal w * measured i H (rp.bind fun r => some [⟨k', d', r, C⟩]) := by
  cases rp with
  | none =>
    show (⊤ : ℝ≥0∞) = _ * ⊤
    rw [ENNReal.mul_top (ENNReal.ofReal_pos.mpr hw).ne']
  | some r =>
    simp only [Option.bind_some, measured, List.map_cons, List.map_nil, List.sum_cons, List.sum_nil, add_zero, chan_smul]
    rw [ENNReal.ofReal_mul hw.le]
    ring

namespace Site
variable {S : Site} {W : World} {n : Int} {cam : Camera} {H : ℝ × ℝ → ℝ≥0∞}
variable (h : S.Sound) (T : S.Told W n cam) (A : S.Stage W n H) (V : S.Proper)

theorem worth_heur {ω : Weights} (i : Fin 3) (s : ℕ) (m : List Node) (z : Spot) : S.worth ω i s m z = ENNReal.ofReal (ω m z s) * S.worth (S.heur false) i s m z := by
  have e : S.heur false m z s = 1 := rfl
  unfold worth
  rw [e, ENNReal.ofReal_one, mul_one]
  ring

include V in
theorem Proper.bal_pos {m : List Node} {z : Spot} (hm : ∀ y ∈ m, S.Fit y) (hz : z.1 ∈ S.Fs.map (·.1)) (h2 : S.Clear m z) {s : ℕ} (hs : s ≤ m.length + 1) (hd : 0 < S.dens m z s) : 0 < S.bal m z s := by
  have h0 := (V.bare_pos hm h2 (s := s)).mpr hd
  exact div_pos h0 (Finset.sum_pos' (fun k _ => V.bare_nonneg hm hz h2 k) ⟨s, Finset.mem_range.mpr (by omega), h0⟩)

include h T A V in
/-- What the connection of two subpaths adds. -/
theorem opt_join {i : Fin 3} {L E : List CV} (RL : Run W .LE .light L) (RE : Run W .EL .camera E) {zv : Vert} {z : Spot} (hz : S.Lit zv z) (hpA : 0 < S.pA z.1) (hzF : S.Fine W n cam z) {e0 l0 : List Node}
    (hLv : L.map CV.vert = zv :: l0.map S.toVert) (hEv : E.map CV.vert = camV W n cam :: e0.map S.toVert) {j k : ℕ} (hj : j ≤ l0.length) (hk : k ≤ e0.length) (hE0 : S.GoodE (S.Fine W n cam) e0) (hL0 : S.GoodL (S.Fine W n cam) z l0)
    (hd : (endS z (l0.take j)).2 ≠ lastP S.eye (e0.take k)) : measured i H (optSplat W S.Q L E (j + 1, k + 1)) = S.worth S.bal i (j + 1) (e0.take k ++ (l0.take j).reverse) z := by
  obtain ⟨Lt, hLt⟩ := A.light z.1 hzF.1.prim hpA
  have hlL : L.length = l0.length + 1 := by have := congrArg List.length hLv; simpa using this
  have hlE : E.length = e0.length + 1 := by have := congrArg List.length hEv; simpa using this
  have hj1 : j + 1 ≤ L.length := by omega
  have hk1 : k + 1 ≤ E.length := by omega
  have hfull := full_join (W := W) (Nat.le_add_left 1 j) hj1 (Nat.le_add_left 1 k) hk1 RL.toSubpath RE.toSubpath
  obtain ⟨u, hu⟩ : ∃ u, L[j]? = some u := ⟨_, List.getElem?_eq_getElem (by omega)⟩
  obtain ⟨v, hv⟩ : ∃ v, E[k]? = some v := ⟨_, List.getElem?_eq_getElem (by omega)⟩
  obtain ⟨hlen, aL, aE⟩ := align (L.map CV.vert) (E.map CV.vert) (s := j + 1) (t := k + 1) (by simpa using hj1) (by simpa using hk1)
  have hjv := join_value h T A (mis := false) (i := i) hz hpA hzF (hE0.take k) (hL0.take j) hd
  rw [show (l0.take j).length = j by simp [hj], show (e0.take k).length = k by simp [hk]] at hjv
  rw [worth_heur, ← hjv]
  set e := e0.take k with he
  set l := l0.take j with hl
  have hle : e.length = k := by simp [he, hk]
  have hll : l.length = j := by simp [hl, hj]
  have hE : S.GoodE (S.Fine W n cam) e := hE0.take k
  have hL : S.GoodL (S.Fine W n cam) z l := hL0.take j
  have tL : (L.map CV.vert).take (j + 1) = zv :: l.map S.toVert := by rw [hLv, List.take_succ_cons, ← List.map_take]
  have tE : (E.map CV.vert).take (k + 1) = camV W n cam :: e.map S.toVert := by rw [hEv, List.take_succ_cons, ← List.map_take]
  have hvs : (L.map CV.vert).take (j + 1) ++ ((E.map CV.vert).take (k + 1)).reverse = S.pathOf W n cam zv (e ++ l.reverse) := by
    rw [tL, tE]
    simp [pathOf]
  rw [hvs] at hlen aL aE hfull
  simp only [List.getElem?_map] at aL aE
  have hfitE : ∀ y ∈ e, S.Fit y := fun y hy => (hE.fit y hy).1
  have hfitL : ∀ y ∈ l, S.Fit y := fun y hy => (hL.fit y hy).1
  have hfit : ∀ y ∈ e ++ l.reverse, S.Fit y := fun y hy => by
    rcases List.mem_append.mp hy with hy | hy
    · exact hfitE y hy
    · exact hfitL y (by simpa using hy)
  set vs := S.pathOf W n cam zv (e ++ l.reverse) with hvs'
  have evL : ord vs .LE = zv :: (l.map S.toVert ++ (e.reverse.map S.toVert ++ [camV W n cam])) := by rw [hvs', pathOf_LE]; simp
  have evE : ord vs .EL = camV W n cam :: (e.map S.toVert ++ (l.reverse.map S.toVert ++ [zv])) := by rw [hvs', pathOf_EL]; simp
  obtain ⟨vL, dL, hvL, hdL, hiL, hpL, hsL, hlL', hfL⟩ := lightEnd h T hz hLt hL.links.hops hfitL evL
  obtain ⟨vE, dE, hvE, hdE, hiE, hpE, hsE, hE0', hlE', hfE⟩ := eyeEnd h T hE.hops hfitE evE
  rw [hll] at hvL hdL hlL'
  rw [hle] at hvE hdE hlE'
  have huL : u.vert = vL := by
    have := aL j (by omega)
    rw [hvL, hu] at this
    simpa using this.symm
  have hvE' : v.vert = vE := by
    have := aE k (by omega)
    rw [hvE, hv] at this
    simpa using this.symm
  have hfu : u.sp.geom.infinite = false := RL.finite j u hu
  have hfv : v.sp.geom.infinite = false := RE.finite k v hv
  have hsam : optSamplable W L E (j + 1) (k + 1) = some true := by
    rw [samplable_join (by omega) (by omega) hlen aL aE hu hv hfu hfv, T.samplable hz hLt hfit (by simp; omega)]
    simp; omega
  have hfin : finish W vs = .ok vs := by
    have := A.finish (cam := cam) (m := e ++ l.reverse) (v0 := zv) (by rw [hz.kind]; decide) (by rw [hz.primitive]; exact hLt)
    rw [hz.same] at this
    exact this
  have hcon : connect W S.Q.visible (zv :: l.map S.toVert) (camV W n cam :: e.map S.toVert) (j + 1) (k + 1) = if S.Q.visible vL.sp vE.sp then .ok vs else .fail := by
    unfold connect
    rw [if_neg (by omega), if_neg (by omega), if_neg (by omega)]
    simp only [Nat.add_sub_cancel, hlL', hlE', hiL, hiE, Bool.or_self, Bool.false_eq_true, if_false]
    have et : (zv :: l.map S.toVert).take (j + 1) ++ ((camV W n cam :: e.map S.toVert).take (k + 1)).reverse = vs := by
      rw [List.take_of_length_le (by simp; omega), List.take_of_length_le (by simp; omega), hvs']
      simp [pathOf]
    rw [et, hfin]
    cases S.Q.visible vL.sp vE.sp <;> rfl
  have hou : u.sp = vL.sp := congrArg Vert.sp huL
  have hov : v.sp = vE.sp := congrArg Vert.sp hvE'
  cases hvis : S.Q.visible vL.sp vE.sp with
  | false =>
    have h1 : pathSplat W S.Q false (zv :: l.map S.toVert) (camV W n cam :: e.map S.toVert) (j + 1, k + 1) = some [] := by
      unfold pathSplat
      simp only [hcon, hvis, Bool.false_eq_true, if_false]
    have h2 : optContrb W S.Q.visible L E (j + 1) (k + 1) = some 0 := by
      unfold optContrb
      rw [if_neg (by omega), if_neg (by omega)]
      simp only [Nat.add_sub_cancel, hu, hv, Option.bind_eq_bind, Option.bind_some, hou, hov, hvis, Bool.not_false, if_true]
      rfl
    rw [h1]
    unfold optSplat
    simp only [hsam, h2, Option.bind_eq_bind, Option.bind_some, Bool.not_true, Bool.false_eq_true, if_false, if_true]
    simp [measured]
  | true =>
    have hne : vL.sp.geom.p ≠ vE.sp.geom.p := by rw [hpL, hpE]; exact hd
    have hdLE := direction_of hiL hiE hne
    have hdEL := direction_of hiE hiL hne.symm
    have hG := term_of hiL hiE hne
    obtain ⟨fL, hfL⟩ := hfL (dirOf (vE.sp.geom.p - vL.sp.geom.p)) (unit_to hne)
    obtain ⟨fE, hfE⟩ := hfE (dirOf (vL.sp.geom.p - vE.sp.geom.p)) (unit_to hne.symm)
    obtain ⟨c, hc, hc0⟩ : ∃ c, connectionTerm W vs (j + 1) = some c ∧ (¬ Joint S e z l → c = 0) := by
      refine ⟨((slope vL.sp.geom (dirOf (vE.sp.geom.p - vL.sp.geom.p)) * (slope vE.sp.geom (dirOf (vE.sp.geom.p - vL.sp.geom.p)) / V3.dot (vE.sp.geom.p - vL.sp.geom.p) (vE.sp.geom.p - vL.sp.geom.p))) • fL) * fE, ?_, fun hj => ?_⟩
      · unfold connectionTerm
        dsimp only
        rw [if_neg (by omega), if_neg (by omega), if_pos (by constructor <;> omega)]
        rw [show ((j + 1 : ℕ) : ℤ) - 1 = (j : ℕ) by push_cast; ring, show (vs.length : ℤ) - ((j + 1 : ℕ) : ℤ) - 1 = (k : ℕ) by rw [hlen]; push_cast; ring,
          show ((j + 1 : ℕ) : ℤ) - 2 = (j : ℤ) - 1 by push_cast; ring, show (vs.length : ℤ) - ((j + 1 : ℕ) : ℤ) - 2 = (k : ℤ) - 1 by rw [hlen]; push_cast; ring]
        simp only [hvL, hvE, hdL, hdE, hdLE, hdEL, hfL, hfE, hG, Option.bind_eq_bind, Option.bind_some]
        rfl
      · rw [flat_join hd hpL hpE hsL (fun y e' he => (hsE y e' he).2) hj]
        ext <;> simp
    obtain ⟨hsw, hoc⟩ := contrb_join RL.toSubpath RL.thr RE.toSubpath RE.thr (Nat.le_add_left 1 j) hj1 (Nat.le_add_left 1 k) hk1 hlen aL aE (vis := S.Q.visible) hu hv (by rw [hou, hov]; exact hvis)
      (fun h1 => by
        have := (samplable_conn (s := j + 1) (t := k + 1) hlen (by omega) (by omega) (by rw [T.samplable hz hLt hfit (by simp; omega)]; simp; omega)).1 h1 u.vert (by
          have := aL 0 (by omega)
          rw [show j = 0 by omega] at hu
          rw [hu, vertexAt_ord] at this
          exact this)
        rw [show isConnectableEndpoint W u.sp = some true from this]
        decide)
      (fun h1 => by
        have hk0 : k = 0 := by omega
        have := (samplable_conn (s := j + 1) (t := k + 1) hlen (by omega) (by omega) (by rw [T.samplable hz hLt hfit (by simp; omega)]; simp; omega)).2 h1 v.vert (by
          have := aE 0 (by omega)
          rw [hk0] at hv hlen
          rw [hv, vertexAt_ord] at this
          have e : (ord vs .EL)[0]? = vs[vs.length - 1 - 0]? := by
            show vs.reverse[0]? = _
            rw [List.getElem?_reverse (by omega)]
          rw [e, hlen] at this
          simpa using this)
        rw [show isConnectableEndpoint W v.sp = some true from this]
        decide) hc
    have hrj := raster_join RE.toSubpath (Nat.le_add_left 1 j) (Nat.le_add_left 1 k) hk1 hlen aL aE hu
    set C := u.alpha * c * v.alpha with hC
    have hcon' : connect W S.Q.visible (zv :: l.map S.toVert) (camV W n cam :: e.map S.toVert) (j + 1) (k + 1) = .ok vs := by rw [hcon, hvis]; rfl
    by_cases hC0 : C = 0
    · have h1 : pathSplat W S.Q false (zv :: l.map S.toVert) (camV W n cam :: e.map S.toVert) (j + 1, k + 1) = some [] := by
        unfold pathSplat
        simp only [hcon', hsw, Option.bind_eq_bind, Option.bind_some]
        rw [if_pos hC0]
        rfl
      rw [h1]
      unfold optSplat
      simp only [hsam, hoc, Option.bind_eq_bind, Option.bind_some, Bool.not_true, Bool.false_eq_true, if_false]
      rw [if_pos hC0]
      simp [measured]
    · have hJ : Joint S e z l := by
        by_contra hn
        apply hC0
        rw [hC, hc0 hn]
        ext <;> simp
      have hclear := hJ.clear hE hL
      have hdens : 0 < S.dens (e ++ l.reverse) z (j + 1) := by rw [← hll, dens_join]; exact mul_pos (hL.pos hpA) hE.pos
      have hw := opt_weight h T V RL.toSubpath RE.toSubpath hj1 (Nat.le_add_left 1 k) hk1 hz hzF.1.prim hLt hclear hfit (by simp; omega) hfull hdens
      have hb := V.bal_pos hfit hzF.1.prim hclear (s := j + 1) (by simp; omega) hdens
      have h1 : pathSplat W S.Q false (zv :: l.map S.toVert) (camV W n cam :: e.map S.toVert) (j + 1, k + 1) = (rasterOf W vs).bind fun r => some [⟨.nee, j + 1 + (k + 1), r, C⟩] := by
        unfold pathSplat
        simp only [hcon', hsw, Option.bind_eq_bind, Option.bind_some]
        rw [if_neg hC0]
        simp only [Bool.false_eq_true, if_false, Option.bind_some, one_smul, if_neg (Nat.succ_ne_zero j)]
        rfl
      have h2 : optSplat W S.Q L E (j + 1, k + 1) = (rasterOf W vs).bind fun r => some [⟨.nee, j + 1 + (k + 1), r, S.bal (e ++ l.reverse) z (j + 1) • C⟩] := by
        unfold optSplat
        simp only [hsam, hoc, Option.bind_eq_bind, Option.bind_some, Bool.not_true, Bool.false_eq_true, if_false]
        rw [if_neg hC0]
        simp only [hrj, hw, Option.bind_some, if_neg (Nat.succ_ne_zero j)]
        rfl
      rw [h1, h2]
      exact measured_scaled hb C

/-! ### Eye subpaths that end on a light -/

include h T A V in
/-- What an eye subpath adds that ends at a point of a light: the probability of the component selected there is divided out. -/
theorem opt_hit {i : Fin 3} {L E : List CV} (RL : Run W .LE .light L) (RE : Run W .EL .camera E) {e0 : List Node} (hEv : E.map CV.vert = camV W n cam :: e0.map S.toVert) {k : ℕ} (hk : k < e0.length) (hE0 : S.GoodE (S.Fine W n cam) e0) :
    measured i H (optSplat W S.Q L E (0, k + 2)) = (ENNReal.ofReal (S.pickR (lastP S.eye (e0.take k)) e0[k]))⁻¹ * S.worth S.bal i 0 (e0.take k) e0[k].1 := by
  set m := e0.take k with hm
  set y := e0[k] with hy
  have ey : e0.take (k + 1) = m ++ [y] := by rw [List.take_concat_get' e0 k hk]
  have hE : S.GoodE (S.Fine W n cam) (m ++ [y]) := by rw [← ey]; exact hE0.take _
  have hlm : m.length = k := by simp [hm]; omega
  have hlE : E.length = e0.length + 1 := by have := congrArg List.length hEv; simpa using this
  have hk2 : k + 2 ≤ E.length := by omega
  have hfy := (hE.fit y (by simp)).1
  have hfm : ∀ y ∈ m, S.Fit y := fun x hx => (hE.fit x (by simp [hx])).1
  have hat := h.faceted.at_point y.1.1 y.1.2
  obtain ⟨hclear, hseen⟩ := hE.clear
  obtain ⟨v, hv⟩ : ∃ v, E[k + 1]? = some v := ⟨_, List.getElem?_eq_getElem (by omega)⟩
  have hvv : v.vert = S.toVert y := by
    have : (E.map CV.vert)[k + 1]? = some v.vert := by rw [List.getElem?_map, hv]; rfl
    rw [hEv, List.getElem?_cons_succ, List.getElem?_map, List.getElem?_eq_getElem hk] at this
    simpa using this.symm
  have hvs : v.sp = (S.toVert y).sp := congrArg Vert.sp hvv
  have hvc : v.comp = y.2 := congrArg Vert.comp hvv
  have hprim : (S.toVert y).sp.primitive = y.1.1 := hat.1
  have hkind : (S.toVert y).sp.kind = .surface := T.surface y.1.1 hfy.1 y.1.2
  have hop := (hops_append.mp hE.hops).2.1
  have hp : 0 < S.pickR (lastP S.eye m) y := A.pick _ hfy.1 _ hfy.2 _ _ (unit_to hop.1.symm) hop.2
  have hsam : optSamplable W L E 0 (k + 2) = some true := by
    unfold optSamplable
    rw [if_neg (by omega), if_pos rfl]
    simp only [show k + 2 - 1 = k + 1 from rfl, hv, Option.bind_eq_bind, Option.bind_some, hvs, (h.at y).2.2.1]
    rfl
  cases hLt : W.lightAt y.1.1 with
  | none =>
    have hw : S.whole i m y.1 = 0 := by
      rw [T.whole_seen i hclear.there hfm (A.Le0 _ _ _) hseen]
      unfold wholeV
      rw [A.dark _ hLt]
      have : (0 : V3 ℝ) * firstV S m y.1 = 0 := by ext <;> simp
      rw [this]
      fin_cases i <;> simp [chan]
    have h2 : ∃ C, optContrb W S.Q.visible L E 0 (k + 2) = some C ∧ C = 0 := by
      have e1 : evalContrbDirection W (v.sp.asType .light) 0 v.wRev 0 .LE true = some (V3.all 0) := by
        have : (v.sp.asType .light).primitive = y.1.1 := by rw [hvs]; exact hprim
        have hk' : (v.sp.asType .light).kind = .light := rfl
        simp [evalContrbDirection, hk', this, hLt]
      unfold optContrb
      rw [if_pos rfl]
      simp only [show k + 2 - 1 = k + 1 from rfl, hv, e1, Option.bind_eq_bind, Option.bind_some]
      refine ⟨_, rfl, ?_⟩
      ext <;> simp
    obtain ⟨C, h2, hC⟩ := h2
    rw [worth_zero hw, mul_zero]
    unfold optSplat
    simp only [hsam, h2, hC, Option.bind_eq_bind, Option.bind_some, Bool.not_true, Bool.false_eq_true, if_false, if_true]
    simp [measured]
  | some Lt =>
    have hhv := hit_value h T A (mis := false) (i := i) (L := L.map CV.vert) hE
    rw [hlm] at hhv
    rw [worth_heur, ← hhv]
    set zv : Vert := { S.toVert y with sp := (S.toVert y).sp.asType .light } with hzv
    have hz : S.Lit zv y.1 := ⟨rfl, hprim, (h.at y).1, rfl, (h.at y).2.1, (h.at y).2.2.1⟩
    have hfin := A.finish (cam := cam) (m := m) (v0 := S.toVert y) (by rw [hkind]; decide) (by rw [hprim]; exact hLt)
    have hcon : connect W S.Q.visible (L.map CV.vert) (camV W n cam :: (m ++ [y]).map S.toVert) 0 (k + 2) = .ok (S.pathOf W n cam zv m) := by
      refine Eq.trans ?_ hfin
      unfold connect
      rw [if_neg (by omega), if_pos rfl]
      have hv : subpathVertexAt (camV W n cam :: (m ++ [y]).map S.toVert) (((k + 2 : ℕ) : ℤ) - 1) = some (S.toVert y) := by
        unfold subpathVertexAt
        rw [if_pos (by simp; omega), show (((k + 2 : ℕ) : ℤ) - 1).toNat = m.length + 1 by omega]
        simp
      rw [hv]
      simp only [(h.at y).2.2.1, Bool.false_eq_true, if_false]
      rw [List.take_of_length_le (by simp; omega)]
      simp [pathOf]
    set vs := S.pathOf W n cam zv m with hvs'
    have hlen : vs.length = k + 2 := by rw [hvs', pathOf_length, hlm]
    have evE : ord vs .EL = camV W n cam :: (m.map S.toVert ++ [zv]) := by rw [hvs', pathOf_EL]
    have tE : (E.map CV.vert).take (k + 1) = camV W n cam :: m.map S.toVert := by rw [hEv, List.take_succ_cons, ← List.map_take]
    have hfull : (fullPath L E 0 (k + 2)).map CV.vert = vs := by
      rw [full_hit (W := W) (by omega) hk2 RL.toSubpath RE.toSubpath hv, show k + 2 - 1 = k + 1 from rfl, tE]
      have : (v.asType .light).vert = zv := by
        show (⟨v.sp.asType .light, v.comp⟩ : Vert) = zv
        rw [hvs, hvc]
        rfl
      rw [this, hvs']
      simp [pathOf]
    have aE : ∀ j : ℕ, j + 1 < k + 2 → vertexAt vs j .EL = E[j]?.map CV.vert := fun j hj => by
      rw [← List.getElem?_map, ← List.getElem?_take_of_lt (show j < k + 1 by omega), tE, vertexAt_ord, evE]
      rw [← List.cons_append, List.getElem?_append_left (by simp; omega)]
    have hx : vertexAt vs ((k + 2 - 1 : ℕ) : ℤ) .EL = some ⟨v.sp.asType .light, v.comp⟩ := by
      rw [vertexAt_ord, evE, show k + 2 - 1 = m.length + 1 by omega, hvs, hvc]
      simp
      rfl
    have hwr : v.wRev = dirOf (lastP S.eye m - y.1.2) := by
      obtain ⟨w, hw⟩ : ∃ w, E[k]? = some w := ⟨_, List.getElem?_eq_getElem (by omega)⟩
      have e1 := (RE.dir k w v hw hv).2
      have hwp : w.sp.geom.p = lastP S.eye m := by
        have e2 : (camV W n cam :: m.map S.toVert)[k]? = some w.vert := by
          rw [← tE, List.getElem?_take_of_lt (by omega), List.getElem?_map, hw]; rfl
        rcases List.eq_nil_or_concat m with e | ⟨m', x, e⟩
        · rw [e] at e2 hlm ⊢
          rw [← hlm] at e2
          have : w.vert = camV W n cam := by simpa using e2.symm
          have : w.sp.geom.p = (camV W n cam).sp.geom.p := congrArg (fun v : Vert => v.sp.geom.p) this
          rw [this, camV_geom.2.2, T.position]
          rfl
        · rw [List.concat_eq_append] at e
          rw [e] at e2 hlm ⊢
          have : w.vert = S.toVert x := by
            rw [← hlm] at e2
            simpa using e2.symm
          have : w.sp.geom.p = (S.toVert x).sp.geom.p := congrArg (fun v : Vert => v.sp.geom.p) this
          rw [this, (h.at x).1, lastP_snoc]
      have e3 := direction_of (u := v.vert) (v := w.vert) (RE.finite _ v hv) (RE.finite _ w hw) (by
        show v.sp.geom.p ≠ w.sp.geom.p
        rw [hwp, hvs, (h.at y).1]
        exact hop.1.symm)
      rw [e3] at e1
      have : v.wRev = dirOf (w.sp.geom.p - v.sp.geom.p) := Option.some.inj e1.symm
      rw [this, hwp, hvs, (h.at y).1]
    have hpc : pdfComponent W v.sp v.wRev v.comp = some (S.pickR (lastP S.eye m) y) := by
      rw [hvs, hvc, hwr]
      exact T.component _ hfy.1 _ hfy.2 _ _ (unit_to hop.1.symm) hop.2
    obtain ⟨c, hc⟩ : ∃ c, connectionTerm W vs 0 = some c := by
      unfold connectionTerm
      dsimp only
      rw [if_pos ⟨rfl, by omega⟩]
      have evL : ord vs .LE = zv :: (m.reverse.map S.toVert ++ [camV W n cam]) := by rw [hvs', pathOf_LE]
      have e0 : vertexAt vs 0 .LE = some zv := by have := vertexAt_ord vs 0 .LE; rw [evL] at this; simpa using this
      obtain ⟨d, hd⟩ : ∃ d, direction (some zv) (vertexAt vs 1 .LE) = some d := by
        have e1 : ∃ w, vertexAt vs 1 .LE = some w ∧ w.sp.geom.infinite = false ∧ w.sp.geom.p = lastP S.eye m := by
          have := vertexAt_ord vs 1 .LE
          rw [evL] at this
          rcases List.eq_nil_or_concat m with e | ⟨m', x, e⟩
          · rw [e] at this ⊢
            exact ⟨camV W n cam, by simpa using this, rfl, by rw [camV_geom.2.2, T.position]; rfl⟩
          · rw [List.concat_eq_append] at e
            rw [e] at this ⊢
            exact ⟨S.toVert x, by simpa using this, (h.at x).2.1, by rw [(h.at x).1, lastP_snoc]⟩
        obtain ⟨w, e1, e2, e3⟩ := e1
        rw [e1]
        exact ⟨_, direction_of hz.infinite e2 (by rw [e3, hz.p]; exact hop.1.symm)⟩
      obtain ⟨hev, -⟩ := T.lamp zv y.1 hz Lt hLt
      refine ⟨S.Le y.1.1 y.1.2 d, ?_⟩
      simp only [e0, hd, Option.bind_eq_bind, Option.bind_some]
      simp [evalContrbDirection, hz.kind, hz.primitive, hLt, hev]
    obtain ⟨hsw, hoc⟩ := contrb_hit (L := L) RE.toSubpath RE.thr RE.back (t := k + 2) (by omega) hk2 hv hlen aE hx hpc hc S.Q.visible
    have hrh := raster_hit (L := L) RE.toSubpath (t := k + 2) (by omega) hk2 hv aE hx
    by_cases hC0 : c * v.alpha = 0
    · have h1 : pathSplat W S.Q false (L.map CV.vert) (camV W n cam :: (m ++ [y]).map S.toVert) (0, k + 2) = some [] := by
        unfold pathSplat
        simp only [hcon, hsw, Option.bind_eq_bind, Option.bind_some]
        rw [if_pos (by rw [hC0]; ext <;> simp)]
        rfl
      rw [h1]
      unfold optSplat
      simp only [hsam, hoc, Option.bind_eq_bind, Option.bind_some, Bool.not_true, Bool.false_eq_true, if_false]
      rw [if_pos hC0]
      simp [measured]
    · have hC1 : S.pickR (lastP S.eye m) y • (c * v.alpha) ≠ 0 := fun c => hC0 ((smul_eq_zero.mp c).resolve_left hp.ne')
      have hdens : 0 < S.dens m y.1 0 := by
        have := hE.pos
        rw [eyesR_snoc] at this
        have he := hE.snoc.pos
        exact mul_pos he ((mul_pos_iff_of_pos_right hp).mp ((mul_pos_iff_of_pos_left he).mp this))
      have hw := opt_weight h T V (s := 0) RL.toSubpath RE.toSubpath (Nat.zero_le _) (by omega) hk2 hz hfy.1 hLt hclear hfm (by omega) hfull hdens
      have hb := V.bal_pos hfm hfy.1 hclear (s := 0) (by omega) hdens
      have h1 : pathSplat W S.Q false (L.map CV.vert) (camV W n cam :: (m ++ [y]).map S.toVert) (0, k + 2) = (rasterOf W vs).bind fun r => some [⟨.hit, 0 + (k + 2), r, S.pickR (lastP S.eye m) y • (c * v.alpha)⟩] := by
        unfold pathSplat
        simp only [hcon, hsw, Option.bind_eq_bind, Option.bind_some]
        rw [if_neg hC1]
        simp only [Bool.false_eq_true, if_false, one_smul, if_true]
        rfl
      have h2 : optSplat W S.Q L E (0, k + 2) = (rasterOf W vs).bind fun r => some [⟨.hit, 0 + (k + 2), r, S.bal m y.1 0 • (c * v.alpha)⟩] := by
        unfold optSplat
        simp only [hsam, hoc, Option.bind_eq_bind, Option.bind_some, Bool.not_true, Bool.false_eq_true, if_false]
        rw [if_neg hC0]
        simp only [hrh, hw, Option.bind_some, if_true]
        rfl
      rw [h1, h2, measured_scaled (k' := .hit) (d' := 0 + (k + 2)) hb (c * v.alpha), measured_scaled (k' := .hit) (d' := 0 + (k + 2)) hp (c * v.alpha), mul_left_comm, ← mul_assoc (ENNReal.ofReal _)⁻¹,
        ENNReal.inv_mul_cancel (ENNReal.ofReal_pos.mpr hp).ne' ENNReal.ofReal_ne_top, one_mul]

include h in
/-- The light subpath does not end at the camera. -/
theorem opt_dead (hB : ∀ j ∈ S.Fs.map (·.1), W.cameraAt j = none) (i : Fin 3) {L : List CV} {zv : Vert} {l : List Node} (hLv : L.map CV.vert = zv :: l.map S.toVert) (hl : ∀ y ∈ l, S.Fit y) (E : List CV) {s : ℕ} (hs : s < l.length) : measured i H (optSplat W S.Q L E (s + 2, 0)) = 0 := by
  have hlL : L.length = l.length + 1 := by have := congrArg List.length hLv; simpa using this
  obtain ⟨v, hv⟩ : ∃ v, L[s + 1]? = some v := ⟨_, List.getElem?_eq_getElem (by omega)⟩
  have hvv : v.vert = S.toVert l[s] := by
    have : (L.map CV.vert)[s + 1]? = some v.vert := by rw [List.getElem?_map, hv]; rfl
    rw [hLv, List.getElem?_cons_succ, List.getElem?_map, List.getElem?_eq_getElem hs] at this
    simpa using this.symm
  have hvs : v.sp = (S.toVert l[s]).sp := congrArg Vert.sp hvv
  have hp : (S.toVert l[s]).sp.primitive = l[s].1.1 := (h.faceted.at_point _ _).1
  have hsam : optSamplable W L E (s + 2) 0 = some true := by
    unfold optSamplable
    rw [if_neg (by omega), if_neg (by omega), if_pos rfl]
    simp only [show s + 2 - 1 = s + 1 from rfl, hv, Option.bind_eq_bind, Option.bind_some, hvs, (h.at l[s]).2.2.1]
    rfl
  have h2 : ∃ C, optContrb W S.Q.visible L E (s + 2) 0 = some C ∧ C = 0 := by
    have e1 : evalContrbDirection W (v.sp.asType .camera) 0 v.wRev 0 .EL true = some (V3.all 0) := by
      have hp' : (v.sp.asType .camera).primitive = l[s].1.1 := by rw [hvs]; exact hp
      have hk' : (v.sp.asType .camera).kind = .camera := rfl
      simp only [evalContrbDirection, hk', hp', hB _ (hl _ (List.getElem_mem hs)).1]
    unfold optContrb
    rw [if_neg (by omega), if_pos rfl]
    simp only [show s + 2 - 1 = s + 1 from rfl, hv, e1, Option.bind_eq_bind, Option.bind_some]
    refine ⟨_, rfl, ?_⟩
    ext <;> simp
  obtain ⟨C, h2, hC⟩ := h2
  unfold optSplat
  simp only [hsam, h2, hC, Option.bind_eq_bind, Option.bind_some, Bool.not_true, Bool.false_eq_true, if_false, if_true]
  simp [measured]

end Site
end LM.Transport
