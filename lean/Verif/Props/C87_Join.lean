import Verif.Props.C87_Value
/-
  C87: the value of the connection of two subpaths, and that of an eye subpath that ends on a light.
-/
namespace LM.Transport
open MeasureTheory LM LM.Surface LM.Material LM.Light LM.MathF LM.Path LM.Render LM.Solid Set
open scoped ENNReal

namespace Site
variable {S : Site} {W : World} {n : Int} {cam : Camera} {H : ℝ × ℝ → ℝ≥0∞}

theorem endS_snoc (z : Spot) (l : List Node) (y : Node) : endS z (l ++ [y]) = y.1 := by
  induction l generalizing z with
  | nil => rfl
  | cons x l ih => exact ih x.1

variable (h : S.Sound) (T : S.Told W n cam) (A : S.Stage W n H)

include h T in
/-- The last vertex of the light subpath. -/
theorem lightEnd {zv : Vert} {z : Spot} (hz : S.Lit zv z) {L : Light} (hL : W.lightAt z.1 = some L) {l : List Node} (hl : S.Hops z.2 l) (hfit : ∀ y ∈ l, S.Fit y) {vs b : List Vert} (ev : ord vs .LE = zv :: (l.map S.toVert ++ b)) :
    ∃ vL dL, vertexAt vs (l.length : ℕ) .LE = some vL ∧ direction (some vL) (vertexAt vs ((l.length : ℤ) - 1) .LE) = some dL ∧ vL.sp.geom.infinite = false ∧ vL.sp.geom.p = (endS z l).2 ∧ (∀ d, slope vL.sp.geom d = |V3.dot (S.nrm (endS z l)) d|) ∧
      (zv :: l.map S.toVert)[l.length]? = some vL ∧ ∀ wo, V3.dot wo wo = 1 → ∃ f, evalContrbDirection W vL.sp dL wo vL.comp .LE true = some f := by
  rcases List.eq_nil_or_concat l with rfl | ⟨l', y, rfl⟩
  · have e0 : vertexAt vs 0 .LE = some zv := by have := vertexAt_ord vs 0 .LE; rw [ev] at this; simpa using this
    obtain ⟨hev, -⟩ := T.lamp zv z hz L hL
    refine ⟨zv, 0, e0, ?_, hz.infinite, hz.p, fun d => ?_, rfl, fun wo _ => ⟨S.Le z.1 z.2 wo, ?_⟩⟩
    · have : vertexAt vs ((([] : List Node).length : ℤ) - 1) .LE = none := vertexAt_neg vs .LE
      rw [this]
      rfl
    · simp [slope, hz.degenerated, hz.n, endS]
    · simp [evalContrbDirection, hz.kind, hz.primitive, hL, hev]
  · rw [List.concat_eq_append] at *
    have hop : S.Hop (lastP z.2 l') y.1 := Hops.split hl
    have hprev : ∃ u, vertexAt vs (((l' ++ [y]).length : ℤ) - 1) .LE = some u ∧ u.sp.geom.infinite = false ∧ u.sp.geom.p = lastP z.2 l' := by
      rw [show (((l' ++ [y]).length : ℕ) : ℤ) - 1 = (l'.length : ℕ) by simp, vertexAt_ord, ev]
      rcases List.eq_nil_or_concat l' with rfl | ⟨l'', x, rfl⟩
      · exact ⟨zv, by simp, hz.infinite, hz.p⟩
      · exact ⟨S.toVert x, by simp, (h.at x).2.1, by rw [(h.at x).1, List.concat_eq_append, lastP_snoc]⟩
    obtain ⟨u, hu, hi, hp⟩ := hprev
    have hop' : S.Hop u.sp.geom.p y.1 := by rw [hp]; exact hop
    have hf := hfit y (by simp)
    refine ⟨S.toVert y, dirOf (u.sp.geom.p - y.1.2), ?_, ?_, (h.at y).2.1, ?_, fun d => ?_, ?_, fun wo hwo => ⟨_, T.eval _ hf.1 _ hf.2 _ _ _ (unit_to hop'.1.symm) hwo hop'.2 _ true⟩⟩
    · rw [vertexAt_ord, ev]; simp
    · rw [hu]; exact (direction_node h hi hop'.1).2
    · rw [(h.at y).1, endS_snoc]
    · rw [slope_node h, endS_snoc]
    · simp

include h T in
/-- The last vertex of the eye subpath. -/
theorem eyeEnd {e : List Node} (hE : S.Hops S.eye e) (hfit : ∀ y ∈ e, S.Fit y) {vs b : List Vert} (ev : ord vs .EL = camV W n cam :: (e.map S.toVert ++ b)) :
    ∃ vE dE, vertexAt vs (e.length : ℕ) .EL = some vE ∧ direction (some vE) (vertexAt vs ((e.length : ℤ) - 1) .EL) = some dE ∧ vE.sp.geom.infinite = false ∧ vE.sp.geom.p = lastP S.eye e ∧
      (∀ y e', e = y :: e' → vE.sp = S.vertex (endS y.1 e').1 (endS y.1 e').2 ∧ ∀ d, slope vE.sp.geom d = |V3.dot (S.nrm (endS y.1 e')) d|) ∧ (e = [] → vE = camV W n cam) ∧
      (camV W n cam :: e.map S.toVert)[e.length]? = some vE ∧ ∀ wo, V3.dot wo wo = 1 → ∃ f, evalContrbDirection W vE.sp dE wo vE.comp .EL true = some f := by
  rcases List.eq_nil_or_concat e with rfl | ⟨l', y, rfl⟩
  · have e0 : vertexAt vs 0 .EL = some (camV W n cam) := by have := vertexAt_ord vs 0 .EL; rw [ev] at this; simpa using this
    refine ⟨camV W n cam, 0, e0, ?_, rfl, T.position, by simp, fun _ => rfl, rfl, fun wo _ => ⟨V3.all (S.We wo), ?_⟩⟩
    · have : vertexAt vs ((([] : List Node).length : ℤ) - 1) .EL = none := vertexAt_neg vs .EL
      rw [this]
      rfl
    · simp [evalContrbDirection, camV, camVertex, T.cameraAt, (T.camera _).1]
  · rw [List.concat_eq_append] at *
    have hop : S.Hop (lastP S.eye l') y.1 := Hops.split hE
    have hprev : ∃ u, vertexAt vs (((l' ++ [y]).length : ℤ) - 1) .EL = some u ∧ u.sp.geom.infinite = false ∧ u.sp.geom.p = lastP S.eye l' := by
      rw [show (((l' ++ [y]).length : ℕ) : ℤ) - 1 = (l'.length : ℕ) by simp, vertexAt_ord, ev]
      rcases List.eq_nil_or_concat l' with rfl | ⟨l'', x, rfl⟩
      · exact ⟨camV W n cam, by simp, rfl, T.position⟩
      · exact ⟨S.toVert x, by simp, (h.at x).2.1, by rw [(h.at x).1, List.concat_eq_append, lastP_snoc]⟩
    obtain ⟨u, hu, hi, hp⟩ := hprev
    have hop' : S.Hop u.sp.geom.p y.1 := by rw [hp]; exact hop
    have hf := hfit y (by simp)
    refine ⟨S.toVert y, dirOf (u.sp.geom.p - y.1.2), ?_, ?_, (h.at y).2.1, ?_, fun y' e' he => ?_, by simp, ?_, fun wo hwo => ⟨_, T.eval _ hf.1 _ hf.2 _ _ _ (unit_to hop'.1.symm) hwo hop'.2 _ true⟩⟩
    · rw [vertexAt_ord, ev]; simp
    · rw [hu]; exact (direction_node h hi hop'.1).2
    · rw [(h.at y).1, lastP_snoc]
    · have e1 : endS y'.1 e' = y.1 := by
        have : endS y'.1 (y' :: e') = y.1 := by rw [← he, endS_snoc]
        exact this
      rw [e1]
      exact ⟨rfl, fun d => slope_node h y d⟩
    · simp

theorem dens_join (e l : List Node) (z : Spot) : S.dens (e ++ l.reverse) z (l.length + 1) = S.lampsR z l * S.eyesR e := by
  simp only [dens, List.length_append, List.length_reverse]
  rw [if_pos (by omega), Nat.add_sub_cancel, List.drop_left, List.take_left, List.reverse_reverse]

/-- The ends of two subpaths in the tangent planes of each other have geometry term 0. -/
theorem flat_join {e l : List Node} {z : Spot} {vL vE : Vert} (hd : (endS z l).2 ≠ lastP S.eye e) (hpL : vL.sp.geom.p = (endS z l).2) (hpE : vE.sp.geom.p = lastP S.eye e) (hsL : ∀ d, slope vL.sp.geom d = |V3.dot (S.nrm (endS z l)) d|)
    (hsE : ∀ y e', e = y :: e' → ∀ d, slope vE.sp.geom d = |V3.dot (S.nrm (endS y.1 e')) d|) (hj : ¬ Joint S e z l) :
    slope vL.sp.geom (dirOf (vE.sp.geom.p - vL.sp.geom.p)) * (slope vE.sp.geom (dirOf (vE.sp.geom.p - vL.sp.geom.p)) / V3.dot (vE.sp.geom.p - vL.sp.geom.p) (vE.sp.geom.p - vL.sp.geom.p)) = 0 := by
  by_contra c
  apply hj
  have c1 := left_ne_zero_of_mul c
  have c2 := left_ne_zero_of_mul (show slope vE.sp.geom (dirOf (vE.sp.geom.p - vL.sp.geom.p)) * (V3.dot (vE.sp.geom.p - vL.sp.geom.p) (vE.sp.geom.p - vL.sp.geom.p))⁻¹ ≠ 0 from right_ne_zero_of_mul c)
  rw [hsL, hpL, hpE] at c1
  refine ⟨⟨hd.symm, ?_⟩, fun y e' he => ⟨?_, ?_⟩⟩
  · rw [V3.dot_comm]; exact abs_ne_zero.mp c1
  · rw [← lastP_endS S.eye, ← he, ← endS_pos]; exact hd
  · rw [hsE y e' he, hpL, hpE] at c2
    rw [V3.dot_comm, dirOf_swap, V3.dot_neg_right, neg_ne_zero, ← endS_pos, ← lastP_endS S.eye, ← he]
    exact abs_ne_zero.mp c2

include h T A in
/-- What the connection of a light subpath and an eye subpath adds. -/
theorem join_value {mis : Bool} {i : Fin 3} {zv : Vert} {z : Spot} (hz : S.Lit zv z) (hpA : 0 < S.pA z.1) (hzF : S.Fine W n cam z) {e l : List Node} (hE : S.GoodE (S.Fine W n cam) e) (hL : S.GoodL (S.Fine W n cam) z l)
    (hd : (endS z l).2 ≠ lastP S.eye e) : measured i H (pathSplat W S.Q mis (zv :: l.map S.toVert) (camV W n cam :: e.map S.toVert) (l.length + 1, e.length + 1)) = S.worth (S.heur mis) i (l.length + 1) (e ++ l.reverse) z := by
  obtain ⟨Lt, hLt⟩ := A.light z.1 hzF.1.prim hpA
  have hfitE : ∀ y ∈ e, S.Fit y := fun y hy => (hE.fit y hy).1
  have hfitL : ∀ y ∈ l, S.Fit y := fun y hy => (hL.fit y hy).1
  have hfit : ∀ y ∈ e ++ l.reverse, S.Fit y := fun y hy => by
    rcases List.mem_append.mp hy with hy | hy
    · exact hfitE y hy
    · exact hfitL y (by simpa using hy)
  have hpl : ∀ y ∈ l, Placed S y.1 := fun y hy => (hL.fit y hy).2.1
  have hzP := hzF.1
  set vs := S.pathOf W n cam zv (e ++ l.reverse) with hvs
  have evL : ord vs .LE = zv :: (l.map S.toVert ++ (e.reverse.map S.toVert ++ [camV W n cam])) := by rw [hvs, pathOf_LE]; simp
  have evE : ord vs .EL = camV W n cam :: (e.map S.toVert ++ (l.reverse.map S.toVert ++ [zv])) := by rw [hvs, pathOf_EL]; simp
  obtain ⟨vL, dL, hvL, hdL, hiL, hpL, hsL, hlL, hfL⟩ := lightEnd h T hz hLt hL.links.hops hfitL evL
  obtain ⟨vE, dE, hvE, hdE, hiE, hpE, hsE, hE0, hlE, hfE⟩ := eyeEnd h T hE.hops hfitE evE
  have hfin : finish W vs = .ok vs := by
    have := A.finish (cam := cam) (m := e ++ l.reverse) (v0 := zv) (by rw [hz.kind]; decide) (by rw [hz.primitive]; exact hLt)
    rw [hz.same] at this
    exact this
  have hcon : connect W S.Q.visible (zv :: l.map S.toVert) (camV W n cam :: e.map S.toVert) (l.length + 1) (e.length + 1) = if S.Q.visible vL.sp vE.sp then .ok vs else .fail := by
    unfold connect
    rw [if_neg (by omega), if_neg (by omega), if_neg (by omega)]
    simp only [Nat.add_sub_cancel, hlL, hlE, hiL, hiE, Bool.or_self, Bool.false_eq_true, if_false]
    have et : (zv :: l.map S.toVert).take (l.length + 1) ++ ((camV W n cam :: e.map S.toVert).take (e.length + 1)).reverse = vs := by
      rw [List.take_of_length_le (by simp), List.take_of_length_le (by simp), hvs]
      simp [pathOf]
    rw [et, hfin]
    cases S.Q.visible vL.sp vE.sp <;> rfl
  have hendP : Placed S (endS z l) := by
    rcases List.eq_nil_or_concat l with rfl | ⟨l', y, rfl⟩
    · exact hzP
    · rw [List.concat_eq_append, endS_snoc]
      exact hpl y (by simp)
  -- visibility, where the ends are not in the tangent plane of each other
  have hvis : Joint S e z l → (S.Q.visible vL.sp vE.sp = true ↔ Seen S S.eye (e ++ l.reverse) z) := by
    intro hj
    rw [h.seen_join hE hL hzP hpl]
    have e1 : S.Q.visible vL.sp vE.sp = S.Q.visible (S.vertex (endS z l).1 (endS z l).2) vE.sp :=
      A.place _ _ _ (by rw [hpL, (h.faceted.at_point _ _).2.1]) hiL (h.faceted.at_point _ _).2.2.1 hiE
    rw [e1]
    cases he : e with
    | nil =>
      have e2 : vE = camV W n cam := hE0 he
      rw [e2]
      have hF : S.Fine W n cam (endS z l) := by
        rcases List.eq_nil_or_concat l with rfl | ⟨l', y, rfl⟩
        · exact hzF
        · rw [List.concat_eq_append, endS_snoc]
          exact (hL.fit y (by simp)).2
      exact hF.2.2
    | cons y e' =>
      have hjs := hj.2 y e' he
      have hj1 := hj.1
      rw [he, lastP_endS] at hj1
      have hyP : Placed S (endS y.1 e') := by
        rcases List.eq_nil_or_concat e' with rfl | ⟨l', y', rfl⟩
        · exact (hE.fit y (by rw [he]; simp)).2.1
        · rw [List.concat_eq_append, endS_snoc]
          exact (hE.fit y' (by rw [he]; simp)).2.1
      rw [(hsE y e' he).1, lastP_endS]
      rw [← endS_pos] at hjs
      rw [← h.sees_swap hendP hyP hjs hj1]
      obtain ⟨s, hs, es, is⟩ := hendP
      obtain ⟨t, ht, et, it⟩ := hyP
      have c1 := h.cross ht et it hjs
      have c2 := h.cross hs es is hj1
      have c2' : V3.dot (triCross s.2) ((endS y.1 e').2 - (endS z l).2) ≠ 0 := by
        intro c
        apply c2
        rw [show (endS z l).2 - (endS y.1 e').2 = -((endS y.1 e').2 - (endS z l).2) by abel, V3.dot_neg_right, c, neg_zero]
      have := A.sight s hs t ht _ _ is it c2' c1
      rw [es, et] at this
      exact this
  by_cases hj : Joint S e z l
  · have hclear := hj.clear hE hL
    cases hv : S.Q.visible vL.sp vE.sp with
    | false =>
      have hns : ¬ Seen S S.eye (e ++ l.reverse) z := by rw [← hvis hj, hv]; decide
      rw [worth_zero (whole_unseen i hns)]
      unfold pathSplat
      simp only [hcon, hv, Bool.false_eq_true, if_false]
      simp [measured]
    | true =>
      rw [hv, if_pos rfl] at hcon
      exact splat h T A hz hLt hclear hfit (by simp; omega) (by rw [dens_join]; exact mul_pos (hL.pos hpA) hE.pos) ((hvis hj).mp hv) hcon
  · have hw : S.whole i (e ++ l.reverse) z = 0 := by
      by_contra c
      exact hj (whole_joint c)
    rw [worth_zero hw]
    cases hv : S.Q.visible vL.sp vE.sp with
    | false =>
      unfold pathSplat
      simp only [hcon, hv, Bool.false_eq_true, if_false]
      simp [measured]
    | true =>
      obtain ⟨aL, haL⟩ := alphaL h T hz hLt hpA hL evL
      obtain ⟨aE, haE⟩ := alphaE h T hE evE
      have hlen : vs.length = e.length + l.length + 2 := by rw [hvs, pathOf_length]; simp
      have hne : vL.sp.geom.p ≠ vE.sp.geom.p := by rw [hpL, hpE]; exact hd
      have hdLE := direction_of hiL hiE hne
      have hdEL := direction_of hiE hiL hne.symm
      have hG := term_of hiL hiE hne
      obtain ⟨fL, hfL⟩ := hfL (dirOf (vE.sp.geom.p - vL.sp.geom.p)) (unit_to hne)
      obtain ⟨fE, hfE⟩ := hfE (dirOf (vL.sp.geom.p - vE.sp.geom.p)) (unit_to hne.symm)
      have hG0 : slope vL.sp.geom (dirOf (vE.sp.geom.p - vL.sp.geom.p)) * (slope vE.sp.geom (dirOf (vE.sp.geom.p - vL.sp.geom.p)) / V3.dot (vE.sp.geom.p - vL.sp.geom.p) (vE.sp.geom.p - vL.sp.geom.p)) = 0 :=
        flat_join hd hpL hpE hsL (fun y e' he => (hsE y e' he).2) hj
      have hc : connectionTerm W vs (l.length + 1) = some 0 := by
        unfold connectionTerm
        dsimp only
        rw [if_neg (by omega), if_neg (by omega), if_pos (by constructor <;> omega)]
        rw [show ((l.length + 1 : ℕ) : ℤ) - 1 = (l.length : ℕ) by push_cast; ring, show (vs.length : ℤ) - ((l.length + 1 : ℕ) : ℤ) - 1 = (e.length : ℕ) by rw [hlen]; push_cast; ring,
          show ((l.length + 1 : ℕ) : ℤ) - 2 = (l.length : ℤ) - 1 by push_cast; ring, show (vs.length : ℤ) - ((l.length + 1 : ℕ) : ℤ) - 2 = (e.length : ℤ) - 1 by rw [hlen]; push_cast; ring]
        simp only [hvL, hvE, hdL, hdE, hdLE, hdEL, hfL, hfE, hG, hG0, Option.bind_eq_bind, Option.bind_some]
        congr 1
        ext <;> simp
      have hw : samplingWeight W vs (l.length + 1) = some 0 := by
        unfold samplingWeight
        rw [show vs.length - (l.length + 1) = e.length + 1 by omega]
        simp only [haL, haE, hc, Option.bind_eq_bind, Option.bind_some]
        split_ifs
        · rfl
        · rfl
        · show some _ = some _
          congr 1
          ext <;> simp
      unfold pathSplat
      simp only [hcon, hv, if_true, hw, Option.bind_eq_bind, Option.bind_some]
      simp [measured]

/-! ### Eye subpaths that end on a light -/

theorem linksR_snoc (w : V3 ℝ) (x : Node) (l : List Node) (y : Node) : S.linksR w x (l ++ [y]) = S.linksR w x l * (S.lastR w x l y.1 * S.pickR (lastP x.1.2 l) y) := by
  induction l generalizing w x with
  | nil => simp [linksR, lastR, linkR, lastP]
  | cons x' l ih =>
    simp only [List.cons_append, linksR, lastR, lastP]
    rw [ih]
    ring

theorem eyesR_snoc (m : List Node) (y : Node) : S.eyesR (m ++ [y]) = S.eyesR m * (S.reachR m y.1 * S.pickR (lastP S.eye m) y) := by
  cases m with
  | nil => simp [eyesR, reachR, linksR, lastP]
  | cons x l =>
    simp only [List.cons_append, eyesR, reachR, lastP]
    rw [linksR_snoc]
    ring

theorem GoodE.snoc {G : Spot → Prop} {m : List Node} {y : Node} (hE : S.GoodE G (m ++ [y])) : S.GoodE G m := by
  have := hE.take m.length
  rwa [List.take_left] at this

/-- Reached by the eye subpath. -/
theorem GoodE.clear {G : Spot → Prop} {m : List Node} {y : Node} (hE : S.GoodE G (m ++ [y])) : S.Clear m y.1 ∧ Seen S S.eye m y.1 := by
  have hm := hE.snoc
  have h1 := (hops_append.mp hE.hops)
  refine ⟨⟨h1.1, ?_, h1.2.1.1⟩, ?_⟩
  · cases m with
    | nil => trivial
    | cons x l =>
      have hl : S.Links x.1 (l ++ [y]) := hE.2.2.2.links
      have key : ∀ (x : Spot) (l : List Node), S.Links x (l ++ [y]) → S.Hop y.1.2 (endS x l) ∧ S.Links x l := by
        intro x l
        induction l generalizing x with
        | nil => exact fun hh => ⟨hh.2.1, trivial⟩
        | cons x' l ih => exact fun hh => ⟨(ih x'.1 hh.2.2).1, hh.1, hh.2.1, (ih x'.1 hh.2.2).2⟩
      exact (key x.1 l hl).2.reverse (key x.1 l hl).1
  · have hs := hE.sights
    have key : ∀ (o : V3 ℝ) (m : List Node), S.Sights o (m ++ [y]) → Seen S o m y.1 := by
      intro o m
      induction m generalizing o with
      | nil => exact fun hh => hh.1
      | cons x m ih => exact fun hh => ⟨hh.1, ih _ hh.2⟩
    exact key _ _ hs

include h T A in
/-- What an eye subpath adds that ends at a point of a light. -/
theorem hit_value {mis : Bool} {i : Fin 3} {m : List Node} {y : Node} {L : List Vert} (hE : S.GoodE (S.Fine W n cam) (m ++ [y])) :
    measured i H (pathSplat W S.Q mis L (camV W n cam :: (m ++ [y]).map S.toVert) (0, m.length + 2)) = S.worth (S.heur mis) i 0 m y.1 := by
  have hfy := (hE.fit y (by simp)).1
  have hat := h.faceted.at_point y.1.1 y.1.2
  have hk := T.surface y.1.1 hfy.1 y.1.2
  obtain ⟨hclear, hseen⟩ := hE.clear
  have hcon : connect W S.Q.visible L (camV W n cam :: (m ++ [y]).map S.toVert) 0 (m.length + 2) = finish W (S.pathOf W n cam (S.toVert y) m) := by
    unfold connect
    rw [if_neg (by omega), if_pos rfl]
    have hv : subpathVertexAt (camV W n cam :: (m ++ [y]).map S.toVert) (((m.length + 2 : ℕ) : ℤ) - 1) = some (S.toVert y) := by
      unfold subpathVertexAt
      rw [if_pos (by simp; omega), show (((m.length + 2 : ℕ) : ℤ) - 1).toNat = m.length + 1 by omega]
      simp
    rw [hv]
    simp only [(h.at y).2.2.1, Bool.false_eq_true, if_false]
    rw [List.take_of_length_le (by simp)]
    simp [pathOf]
  have hprim : (S.toVert y).sp.primitive = y.1.1 := hat.1
  have hkind : (S.toVert y).sp.kind = .surface := hk
  cases hLt : W.lightAt y.1.1 with
  | none =>
    have hw : S.whole i m y.1 = 0 := by
      rw [T.whole_seen i hclear.there (fun y' hy' => (hE.fit y' (by simp [hy'])).1) (A.Le0 _ _ _) hseen]
      unfold wholeV
      rw [A.dark _ hLt]
      have : (0 : V3 ℝ) * firstV S m y.1 = 0 := by ext <;> simp
      rw [this]
      fin_cases i <;> simp [chan]
    rw [worth_zero hw]
    have hfin : finish W (S.pathOf W n cam (S.toVert y) m) = .fail := by
      have e : S.pathOf W n cam (S.toVert y) m = S.toVert y :: (m.reverse.map S.toVert ++ [camV W n cam]) := pathOf_LE _ m
      have h0 : (S.pathOf W n cam (S.toVert y) m)[0]? = some (S.toVert y) := by rw [e]; rfl
      have h1 : (S.pathOf W n cam (S.toVert y) m)[(S.pathOf W n cam (S.toVert y) m).length - 1]? = some (camV W n cam) := by
        rw [pathOf_length, e]
        simp
      have hl : LM.Path.isLight W (S.toVert y).sp = false := by simp [LM.Path.isLight, hprim, hLt]
      unfold LM.Path.finish
      simp only [h0, h1, hl, Bool.not_false, if_true]
    unfold pathSplat
    simp only [hcon, hfin]
    simp [measured]
  | some Lt =>
    have hfin := A.finish (cam := cam) (m := m) (v0 := S.toVert y) (by rw [hkind]; decide) (by rw [hprim]; exact hLt)
    have hz : S.Lit { S.toVert y with sp := (S.toVert y).sp.asType .light } y.1 := ⟨rfl, hprim, (h.at y).1, rfl, (h.at y).2.1, (h.at y).2.2.1⟩
    refine splat h T A hz hLt hclear (fun y' hy' => (hE.fit y' (by simp [hy'])).1) (by omega) ?_ hseen (hcon.trans hfin)
    have := hE.pos
    rw [eyesR_snoc] at this
    have he := hE.snoc.pos
    have h1 := (mul_pos_iff_of_pos_left he).mp this
    show 0 < S.eyesR m * S.reachR m y.1
    have hop := (hops_append.mp hE.hops).2.1
    have hp : 0 < S.pickR (lastP S.eye m) y := A.pick _ hfy.1 _ hfy.2 _ _ (unit_to hop.1.symm) hop.2
    exact mul_pos he ((mul_pos_iff_of_pos_right hp).mp h1)

end Site

end LM.Transport
