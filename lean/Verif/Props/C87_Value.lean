import Verif.Props.C87_Link
/-
  C87: what one pair of subpaths adds to the film.
-/
namespace LM.Transport
open MeasureTheory LM LM.Surface LM.Material LM.Light LM.MathF LM.Path LM.Render LM.Solid Set
open scoped ENNReal

/-- The connection uses the first s and t vertices. -/
theorem connect_take (W : World) (vis : SI → SI → Bool) (L E : List Vert) {s t : ℕ} (hs : s ≤ L.length) (ht : t ≤ E.length) : connect W vis L E s t = connect W vis (L.take s) (E.take t) s t := by
  unfold connect
  rw [List.take_take, List.take_take, min_self, min_self]
  by_cases h0 : s = 0 ∧ t = 0
  · rw [if_pos h0, if_pos h0]
  rw [if_neg h0, if_neg h0]
  have key : ∀ (l : List Vert) (k : ℕ), k ≤ l.length → k ≠ 0 → subpathVertexAt (l.take k) ((k : ℤ) - 1) = subpathVertexAt l ((k : ℤ) - 1) ∧ (l.take k)[k - 1]? = l[k - 1]? := by
    intro l k hk h0
    have e : (l.take k)[k - 1]? = l[k - 1]? := by rw [List.getElem?_take]; rw [if_pos (by omega)]
    refine ⟨?_, e⟩
    unfold subpathVertexAt
    rw [List.length_take, min_eq_left hk, if_pos (by omega), if_pos (by omega), show ((k : ℤ) - 1).toNat = k - 1 by omega, e]
  by_cases hs0 : s = 0
  · rw [if_pos hs0, if_pos hs0, (key E t ht (by omega)).1]
  rw [if_neg hs0, if_neg hs0]
  by_cases ht0 : t = 0
  · rw [if_pos ht0, if_pos ht0, (key L s hs hs0).1]
  · rw [if_neg ht0, if_neg ht0, (key L s hs hs0).2, (key E t ht ht0).2]

theorem pathSplat_take (W : World) (Q : Query) (mis : Bool) (L E : List Vert) {s t : ℕ} (hs : s ≤ L.length) (ht : t ≤ E.length) : pathSplat W Q mis L E (s, t) = pathSplat W Q mis (L.take s) (E.take t) (s, t) := by
  unfold pathSplat
  rw [connect_take W _ L E hs ht]

namespace Site

/-- The scene of the site, as the renderers ask for it: the camera and its film, visibility, and which surfaces are lights. -/
structure Stage (S : Site) (W : World) (n : Int) (H : ℝ × ℝ → ℝ≥0∞) : Prop where
  camera : W.st.camera = some n
  /-- the camera is not a surface -/
  other : n ∉ S.Fs.map (·.1)
  film : ∀ d, S.film d = onFilm W H 1 (0, 0) d
  /-- directions of positive importance are on the film -/
  raster : ∀ d, S.We d ≠ 0 → ∃ r, rasterAt W d = some (some r)
  /-- visibility depends on the positions -/
  place : ∀ a b c, a.geom.p = b.geom.p → a.geom.infinite = false → b.geom.infinite = false → c.geom.infinite = false → S.Q.visible a c = S.Q.visible b c
  /-- two points of surfaces are visible from each other, if the ray from one meets the other -/
  sight : ∀ s ∈ S.Fs, ∀ t ∈ S.Fs, ∀ p q, Inside s.2 p → Inside t.2 q → V3.dot (triCross s.2) (q - p) ≠ 0 → V3.dot (triCross t.2) (q - p) ≠ 0 → (S.Q.visible (S.vertex s.1 p) (S.vertex t.1 q) = true ↔ Sees S.Q p t.1 q)
  /-- all components are selected -/
  pick : ∀ j ∈ S.Fs.map (·.1), ∀ c ∈ S.C j, ∀ p wi, V3.dot wi wi = 1 → V3.dot wi (S.vertex j p).geom.n ≠ 0 → 0 < S.pc j c p wi
  light : ∀ j ∈ S.Fs.map (·.1), 0 < S.pA j → ∃ L, W.lightAt j = some L
  dark : ∀ j, W.lightAt j = none → ∀ p d, S.Le j p d = 0
  Le0 : ∀ j p d, NonNeg (S.Le j p d)

/-- Points at which the visibility of the camera is as it should be: inside a triangle, and not at the camera. -/
def Fine (S : Site) (W : World) (n : Int) (cam : Camera) (y : Spot) : Prop := Placed S y ∧ y.2 ≠ S.eye ∧ (S.Q.visible (S.vertex y.1 y.2) (camVertex W n cam) = true ↔ Sees S.Q S.eye y.1 y.2)

/-- Weights of the strategies for the paths through the points m to z. -/
abbrev Weights := List Node → Spot → ℕ → ℝ

/-- The weights of the renderers of renderer_bdpt.cpp: the power heuristic (bdpt), or 1. -/
noncomputable def heur (S : Site) (mis : Bool) : Weights := fun m z s => if mis then S.dens m z s ^ 2 / ∑ k ∈ Finset.range (m.length + 3), S.dens m z k ^ 2 else 1

/-- The value of the path through the points m to z, weighted as a sample of strategy s. -/
noncomputable def worth (S : Site) (ω : Weights) (i : Fin 3) (s : ℕ) (m : List Node) (z : Spot) : ℝ≥0∞ :=
  (ENNReal.ofReal (S.dens m z s))⁻¹ * ENNReal.ofReal (ω m z s) * S.whole i m z

variable {S : Site} {W : World} {n : Int} {cam : Camera} {H : ℝ × ℝ → ℝ≥0∞}
variable (h : S.Sound) (T : S.Told W n cam) (A : S.Stage W n H)

theorem worth_zero {ω : Weights} {i : Fin 3} {s : ℕ} {m : List Node} {z : Spot} (hw : S.whole i m z = 0) : S.worth ω i s m z = 0 := by unfold worth; rw [hw, mul_zero]

/-! ### Re-typing the ends -/

theorem Lit.same {zv : Vert} {z : Spot} (hz : S.Lit zv z) : ({ zv with sp := zv.sp.asType .light } : Vert) = zv := by
  obtain ⟨sp, c⟩ := zv
  have : sp.kind = .light := hz.kind
  cases sp
  simp only at this
  subst this
  rfl

theorem camV_same : ({ camV W n cam with sp := (camV W n cam).sp.asType .camera } : Vert) = camV W n cam := rfl

include A in
theorem Stage.finish {v0 : Vert} {m : List Node} {L : Light} (hk : v0.sp.kind ≠ .medium) (hL : W.lightAt v0.sp.primitive = some L) :
    finish W (S.pathOf W n cam v0 m) = .ok (S.pathOf W n cam { v0 with sp := v0.sp.asType .light } m) := by
  have e : S.pathOf W n cam v0 m = v0 :: (m.reverse.map S.toVert ++ [camV W n cam]) := pathOf_LE v0 m
  have e' := pathOf_LE (S := S) (W := W) (n := n) (cam := cam) { v0 with sp := v0.sp.asType .light } m
  have hlen := pathOf_length (S := S) (W := W) (n := n) (cam := cam) v0 m
  have h0 : (S.pathOf W n cam v0 m)[0]? = some v0 := by rw [e]; rfl
  have h1 : (S.pathOf W n cam v0 m)[(S.pathOf W n cam v0 m).length - 1]? = some (camV W n cam) := by
    rw [hlen, e]
    simp
  unfold LM.Path.finish
  have hl : LM.Path.isLight W v0.sp = true := by simp [LM.Path.isLight, hk, hL]
  have hc : isCamera W (camV W n cam).sp = true := by simp [isCamera, A.camera, camV, camVertex]
  have h2 : ((S.pathOf W n cam v0 m).set 0 { v0 with sp := v0.sp.asType .light })[((S.pathOf W n cam v0 m).set 0 { v0 with sp := v0.sp.asType .light }).length - 1]? = some (camV W n cam) := by
    rw [List.length_set, hlen, e]
    simp
  simp only [h0, h1, hl, hc, h2, Bool.not_true, Bool.false_eq_true, if_false, camV_same]
  congr 1
  have e'' : S.pathOf W n cam { v0 with sp := v0.sp.asType .light } m = { v0 with sp := v0.sp.asType .light } :: (m.reverse.map S.toVert ++ [camV W n cam]) := e'
  rw [e'', List.length_set, hlen, e]
  apply List.ext_getElem?
  intro k
  rw [List.set_cons_zero, show m.length + 2 - 1 = m.length + 1 by omega, List.set_cons_succ]
  cases k with
  | zero => rfl
  | succ k =>
    simp only [List.getElem?_cons_succ]
    rw [List.set_append_right _ _ (by simp)]
    simp

/-! ### The value of a connected path -/

theorem wholeV_We {m : List Node} {z : Spot} (hw : wholeV S m z ≠ 0) : S.We (dirOf (lastP z.2 m.reverse - S.eye)) ≠ 0 := by
  intro c
  apply hw
  have : firstV S m z = 0 := by
    cases m with
    | nil =>
      have c : S.We (dirOf (z.2 - S.eye)) = 0 := c
      simp only [firstV, c, zero_mul]
      rfl
    | cons y l =>
      rw [lastP_reverse] at c
      simp only [firstV, c, zero_mul]
      ext <;> simp
  unfold wholeV
  rw [this]
  ext <;> simp

include h in
theorem Told.first_dir (T : S.Told W n cam) {zv : Vert} {z : Spot} (hz : S.Lit zv z) {m : List Node} (hm : S.Clear m z) :
    direction (vertexAt (S.pathOf W n cam zv m) 0 .EL) (vertexAt (S.pathOf W n cam zv m) 1 .EL) = some (dirOf (lastP z.2 m.reverse - S.eye)) := by
  have e := pathOf_EL (S := S) (W := W) (n := n) (cam := cam) zv m
  have e0 : vertexAt (S.pathOf W n cam zv m) 0 .EL = some (camV W n cam) := by have := vertexAt_ord (S.pathOf W n cam zv m) 0 .EL; rw [e] at this; simpa using this
  have e1 := vertexAt_ord (S.pathOf W n cam zv m) 1 .EL
  rw [e, Nat.cast_one, List.getElem?_cons_succ] at e1
  rw [e0, e1]
  cases m with
  | nil =>
    have hne : (camV W n cam).sp.geom.p ≠ zv.sp.geom.p := by rw [camV_geom.2.2, T.position, hz.p]; exact hm.last
    have := direction_of (u := camV W n cam) (v := zv) rfl hz.infinite hne
    rw [camV_geom.2.2, T.position, hz.p] at this
    exact this
  | cons y l =>
    have hne : (camV W n cam).sp.geom.p ≠ y.1.2 := by rw [camV_geom.2.2, T.position]; exact hm.there.1.1
    have := (direction_node h (v := camV W n cam) rfl hne).1
    rw [camV_geom.2.2, T.position] at this
    rw [lastP_reverse]
    exact this

include h T A in
/-- A connected path of positive density adds its worth. -/
theorem splat {mis : Bool} {i : Fin 3} {L E : List Vert} {s t : ℕ} {zv : Vert} {z : Spot} (hz : S.Lit zv z) {Lt : Light} (hL : W.lightAt z.1 = some Lt) {m : List Node} (hm : S.Clear m z) (hfit : ∀ y ∈ m, S.Fit y) (hs : s ≤ m.length + 2)
    (hd : 0 < S.dens m z s) (hseen : Seen S S.eye m z) (hc : connect W S.Q.visible L E s t = .ok (S.pathOf W n cam zv m)) : measured i H (pathSplat W S.Q mis L E (s, t)) = S.worth (S.heur mis) i s m z := by
  have hlen := pathOf_length (S := S) (W := W) (n := n) (cam := cam) zv m
  have hdens : ∀ k ≤ m.length + 2, pdfBidir W (S.pathOf W n cam zv m) k = some (S.dens m z k) := fun k hk => T.dens h hz hL hm hfit hk
  obtain ⟨C, hC, hCe⟩ := C49_weight W (S.pathOf W n cam zv m) s (by omega) _ _ (hdens s hs) hd.ne' (T.contrb h hz hL hm hfit hs)
  have hw := T.whole_seen i hm.there hfit (A.Le0 _ _ _) hseen
  have hmis : (if mis then misWeight W (S.pathOf W n cam zv m) s else some 1) = some (if mis then S.dens m z s ^ 2 / ∑ k ∈ Finset.range (m.length + 3), S.dens m z k ^ 2 else 1) := by
    cases mis with
    | false => rfl
    | true =>
      simp only [if_true]
      rw [C50_power W _ (fun k => S.dens m z k) (fun k hk => hdens k (by omega)) s (by omega) hd, hlen]
  have hmis0 : (0 : ℝ) ≤ (if mis then S.dens m z s ^ 2 / ∑ k ∈ Finset.range (m.length + 3), S.dens m z k ^ 2 else 1) := by
    split_ifs
    · exact div_nonneg (sq_nonneg _) (Finset.sum_nonneg fun _ _ => sq_nonneg _)
    · exact zero_le_one
  by_cases hC0 : C = 0
  · unfold pathSplat
    simp only [hc, hC, Option.bind_eq_bind, Option.bind_some]
    rw [if_pos hC0]
    have hw0 : wholeV S m z = 0 := by rw [← hCe, hC0]; ext <;> simp
    rw [worth_zero (by rw [hw, hw0]; fin_cases i <;> simp [chan])]
    simp [measured]
  · have hw0 : wholeV S m z ≠ 0 := by
      intro c
      apply hC0
      rw [c] at hCe
      have e : C = (1 / S.dens m z s) • (S.dens m z s • C) := by ext <;> simp <;> field_simp
      rw [e, hCe]
      ext <;> simp
    obtain ⟨r, hr⟩ := A.raster _ (wholeV_We hw0)
    have hro : rasterOf W (S.pathOf W n cam zv m) = some r := by
      unfold rasterOf
      simp only [T.first_dir h hz hm, hr, Option.bind_eq_bind, Option.bind_some]
    have hfilm : S.film (dirOf (lastP z.2 m.reverse - S.eye)) = H r := by
      rw [A.film, onFilm, if_pos rfl, hr]
    have hps : pathSplat W S.Q mis L E (s, t) = some [⟨if s = 0 then .hit else .nee, s + t, r, (if mis then S.dens m z s ^ 2 / ∑ k ∈ Finset.range (m.length + 3), S.dens m z k ^ 2 else 1) • C⟩] := by
      unfold pathSplat
      simp only [hc, hC, hro, Option.bind_eq_bind, Option.bind_some]
      rw [if_neg hC0]
      cases mis with
      | false => rfl
      | true =>
        simp only [if_true] at hmis ⊢
        rw [hmis]
        rfl
    rw [hps]
    unfold worth heur
    rw [hw, hfilm, ← hCe]
    simp only [measured, List.map_cons, List.map_nil, List.sum_cons, List.sum_nil, add_zero, chan_smul]
    rw [ENNReal.ofReal_mul hmis0, ENNReal.ofReal_mul hd.le]
    set q := ENNReal.ofReal (S.dens m z s) with hq
    have hq0 : q ≠ 0 := (ENNReal.ofReal_pos.mpr hd).ne'
    have hqt : q ≠ ⊤ := ENNReal.ofReal_ne_top
    have e : ∀ a b c : ℝ≥0∞, q⁻¹ * a * (b * (q * c)) = (q⁻¹ * q) * (b * (a * c)) := fun a b c => by ring
    rw [e, ENNReal.inv_mul_cancel hq0 hqt, one_mul]

/-! ### Sampling weights of subpaths -/

include h T in
/-- The weight of a subpath through points that the walk can reach is defined. -/
theorem alphas {G : Spot → Prop} {u : Vert} (hu : u.sp.geom.infinite = false) {x : Node} (hux : S.Hop u.sp.geom.p x.1) (hx : S.Fit x) {l : List Node} (hl : S.Good G u.sp.geom.p x l) {vs a b : List Vert} {dir : TransDir}
    (e : ord vs dir = a ++ u :: S.toVert x :: (l.map S.toVert ++ b)) (p : V3 ℝ) : ∃ q, alphaLoop W vs dir l.length ((a.length + 1 : ℕ) : ℤ) p = some q := by
  induction l generalizing u x a p with
  | nil => exact ⟨p, rfl⟩
  | cons y l ih =>
    obtain ⟨_, hpos, hxy, hyx⟩ := lk_ne hl.1
    have hy := hl.2.1
    obtain ⟨h0, h1, h2⟩ := look (us := ord vs dir) (a := a) (u := u) (v := S.toVert x) (w := S.toVert y) (b := l.map S.toVert ++ b) (by rw [e]; simp)
    have e0 : vertexAt vs (((a.length + 1 : ℕ) : ℤ) - 1) dir = some u := by rw [show ((a.length + 1 : ℕ) : ℤ) - 1 = (a.length : ℕ) by push_cast; ring, vertexAt_ord, h0]
    have e1 : vertexAt vs ((a.length + 1 : ℕ) : ℤ) dir = some (S.toVert x) := by rw [vertexAt_ord, h1]
    have e2 : vertexAt vs (((a.length + 1 : ℕ) : ℤ) + 1) dir = some (S.toVert y) := by rw [show ((a.length + 1 : ℕ) : ℤ) + 1 = (a.length + 2 : ℕ) by push_cast; ring, vertexAt_ord, h2]
    have hc := T.component y.1.1 hy.1 y.2 hy.2 y.1.2 (dirOf (x.1.2 - y.1.2)) (unit_to hxy.1.symm) hxy.2
    have hd := T.pdf x.1.1 hx.1 x.2 hx.2 x.1.2 (dirOf (u.sp.geom.p - x.1.2)) (dirOf (y.1.2 - x.1.2)) (unit_to hux.1.symm) (unit_to hxy.1) hux.2
    have hf := T.eval x.1.1 hx.1 x.2 hx.2 x.1.2 (dirOf (u.sp.geom.p - x.1.2)) (dirOf (y.1.2 - x.1.2)) (unit_to hux.1.symm) (unit_to hxy.1) hux.2 dir false
    rw [dirOf_swap] at hc
    have hp := hpos.ne'
    unfold linkR goR pickR at hp
    have hpd := left_ne_zero_of_mul (left_ne_zero_of_mul (left_ne_zero_of_mul hp))
    have hpc := right_ne_zero_of_mul hp
    rw [dirOf_swap x.1.2 y.1.2] at hpc
    rw [List.length_cons, alphaLoop]
    simp only [e0, e1, e2, (direction_node h hu hux.1).2, direction_nodes h hxy.1, Option.bind_eq_bind, Option.bind_some]
    have hf' : evalContrbDirection W (S.toVert x).sp (dirOf (u.sp.geom.p - x.1.2)) (dirOf (y.1.2 - x.1.2)) (S.toVert x).comp dir false = _ := hf
    have hc' : pdfComponent W (S.toVert y).sp (-dirOf (y.1.2 - x.1.2)) (S.toVert y).comp = _ := hc
    have hd' : pdfDirection W (S.toVert x).sp (dirOf (u.sp.geom.p - x.1.2)) (dirOf (y.1.2 - x.1.2)) (S.toVert x).comp false = _ := hd
    rw [hf']
    simp only [Option.bind_some]
    split_ifs with hz
    · exact ⟨0, rfl⟩
    simp only [hc', hd', Option.bind_some, divV_of_ne hpd, divV_of_ne hpc]
    have := ih (u := S.toVert x) (h.at x).2.1 (x := y) (by rw [(h.at x).1]; exact hxy) hy (by rw [(h.at x).1]; exact hl.2.2.2) (a := a ++ [u]) (by rw [e]; simp)
      (p * ((1 / S.pc y.1.1 y.2 y.1.2 (-dirOf (y.1.2 - x.1.2))) • ((1 / S.P x.1.1 x.2 x.1.2 (dirOf (u.sp.geom.p - x.1.2)) (dirOf (y.1.2 - x.1.2))) • (shadingNormalCorrection (S.vertex x.1.1 x.1.2).geom (dirOf (u.sp.geom.p - x.1.2)) (dirOf (y.1.2 - x.1.2)) dir • S.f x.1.1 x.2 x.1.2 (dirOf (u.sp.geom.p - x.1.2)) (dirOf (y.1.2 - x.1.2))))))
    rw [List.length_append, List.length_singleton] at this
    obtain ⟨q, hq⟩ := this
    refine ⟨q, ?_⟩
    rw [← hq]
    congr 1

include h T in
theorem alphaE {G : Spot → Prop} {e : List Node} (hE : S.GoodE G e) {vs b : List Vert} (ev : ord vs .EL = camV W n cam :: (e.map S.toVert ++ b)) : ∃ a, subpathWeight W vs (e.length + 1) .EL = some a := by
  have e0 : vertexAt vs 0 .EL = some (camV W n cam) := by have := vertexAt_ord vs 0 .EL; rw [ev] at this; simpa using this
  have hpos : pdfPosition W (camV W n cam).sp = some 1 := by simp [pdfPosition, camV, camVertex, T.cameraAt]
  have hcon : isConnectableEndpoint W (camV W n cam).sp = some true := by simp [isConnectableEndpoint, camV, camVertex, T.cameraAt]
  have hcp : pdfComponent W (camV W n cam).sp 0 (camV W n cam).comp = some 1 := rfl
  rw [subpathWeight, if_neg (by omega)]
  simp only [e0, hcon, hpos, hcp, Option.bind_eq_bind, Option.bind_some, if_true, Nat.add_sub_cancel, divV_of_ne (show (1 : ℝ) * 1 ≠ 0 by norm_num)]
  cases e with
  | nil => exact ⟨_, rfl⟩
  | cons y l =>
    obtain ⟨_, hpy, hy⟩ := eyeK_ne hE.1
    have hfy := hE.2.1
    have hne : (camV W n cam).sp.geom.p ≠ y.1.2 := by rw [camV_geom.2.2, T.position]; exact hy.1
    have hdir := (direction_node h (v := camV W n cam) rfl hne).1
    rw [camV_geom.2.2, T.position] at hdir
    have hc := T.component y.1.1 hfy.1 y.2 hfy.2 y.1.2 (dirOf (S.eye - y.1.2)) (unit_to hy.1.symm) hy.2
    rw [dirOf_swap] at hc
    have hd : pdfDirection W (camV W n cam).sp 0 (dirOf (y.1.2 - S.eye)) (camV W n cam).comp false = some (S.We (dirOf (y.1.2 - S.eye))) := by
      simp [pdfDirection, camV, camVertex, T.cameraAt, (T.camera _).2]
    have hf : evalContrbDirection W (camV W n cam).sp 0 (dirOf (y.1.2 - S.eye)) (camV W n cam).comp .EL false = some (V3.all (S.We (dirOf (y.1.2 - S.eye)))) := by
      simp [evalContrbDirection, camV, camVertex, T.cameraAt, (T.camera _).1]
    have hp := hpy.ne'
    unfold eyeR pickR at hp
    have hpd := left_ne_zero_of_mul (left_ne_zero_of_mul hp)
    have hpc := right_ne_zero_of_mul hp
    rw [dirOf_swap] at hpc
    have e2 : vertexAt vs (0 + 1) .EL = some (S.toVert y) := by have := vertexAt_ord vs 1 .EL; rw [ev] at this; simpa using this
    have e3 : direction (some (camV W n cam)) none = some 0 := rfl
    have hc' : pdfComponent W (S.toVert y).sp (-dirOf (y.1.2 - S.eye)) (S.toVert y).comp = _ := hc
    rw [List.length_cons, alphaLoop]
    simp only [vertexAt_neg, e0, e2, e3, hdir, hf, Option.bind_eq_bind, Option.bind_some]
    split_ifs with hz
    · exact ⟨0, rfl⟩
    simp only [hc', hd, Option.bind_some, divV_of_ne hpd, divV_of_ne hpc]
    exact alphas h T (u := camV W n cam) rfl (x := y) (by rw [camV_geom.2.2, T.position]; exact hy) hfy (l := l) (by rw [camV_geom.2.2, T.position]; exact hE.2.2.2) (a := []) (b := b) (by rw [ev]; rfl) _

include h T in
theorem alphaL {G : Spot → Prop} {zv : Vert} {z : Spot} (hz : S.Lit zv z) {L : Light} (hL : W.lightAt z.1 = some L) (hpA : 0 < S.pA z.1) {l : List Node} (hl : S.GoodL G z l) {vs b : List Vert} (ev : ord vs .LE = zv :: (l.map S.toVert ++ b)) :
    ∃ a, subpathWeight W vs (l.length + 1) .LE = some a := by
  have e0 : vertexAt vs 0 .LE = some zv := by have := vertexAt_ord vs 0 .LE; rw [ev] at this; simpa using this
  obtain ⟨hev, hpdz, hpos, hconn, hsp⟩ := T.lamp zv z hz L hL
  have hcon : isConnectableEndpoint W zv.sp = some true := by simp [isConnectableEndpoint, hz.kind, hz.primitive, hL, hconn]
  have hcp : pdfComponent W zv.sp 0 zv.comp = some 1 := by simp [pdfComponent, hz.kind]
  rw [subpathWeight, if_neg (by omega)]
  simp only [e0, hcon, hpos, hcp, Option.bind_eq_bind, Option.bind_some, if_true, Nat.add_sub_cancel, divV_of_ne (show S.pA z.1 * 1 ≠ 0 by rw [mul_one]; exact hpA.ne')]
  cases l with
  | nil => exact ⟨_, rfl⟩
  | cons y l =>
    obtain ⟨_, hpy, hy, _⟩ := lampK_ne hl.1
    have hfy := hl.2.1
    have hne : zv.sp.geom.p ≠ y.1.2 := by rw [hz.p]; exact hy.1
    have hdir := (direction_node h hz.infinite hne).1
    rw [hz.p] at hdir
    have hc := T.component y.1.1 hfy.1 y.2 hfy.2 y.1.2 (dirOf (z.2 - y.1.2)) (unit_to hy.1.symm) hy.2
    rw [dirOf_swap] at hc
    have hd : pdfDirection W zv.sp 0 (dirOf (y.1.2 - z.2)) zv.comp false = some (S.PL z.1 z.2 (dirOf (y.1.2 - z.2))) := by
      simp [pdfDirection, hz.kind, hz.primitive, hL, hpdz]
    have hf : evalContrbDirection W zv.sp 0 (dirOf (y.1.2 - z.2)) zv.comp .LE false = some (S.Le z.1 z.2 (dirOf (y.1.2 - z.2))) := by
      simp [evalContrbDirection, hz.kind, hz.primitive, hL, hev]
    have hp := hpy.ne'
    unfold lampR pickR at hp
    have hpd := left_ne_zero_of_mul (left_ne_zero_of_mul (left_ne_zero_of_mul hp))
    have hpc := right_ne_zero_of_mul hp
    rw [dirOf_swap] at hpc
    have e2 : vertexAt vs (0 + 1) .LE = some (S.toVert y) := by have := vertexAt_ord vs 1 .LE; rw [ev] at this; simpa using this
    have e3 : direction (some zv) none = some 0 := rfl
    have hc' : pdfComponent W (S.toVert y).sp (-dirOf (y.1.2 - z.2)) (S.toVert y).comp = _ := hc
    rw [List.length_cons, alphaLoop]
    simp only [vertexAt_neg, e0, e2, e3, hdir, hf, Option.bind_eq_bind, Option.bind_some]
    split_ifs with hz'
    · exact ⟨0, rfl⟩
    simp only [hc', hd, Option.bind_some, divV_of_ne hpd, divV_of_ne hpc]
    exact alphas h T (u := zv) hz.infinite (x := y) (by rw [hz.p]; exact hy) hfy (l := l) (by rw [hz.p]; exact hl.2.2.2) (a := []) (b := b) (by rw [ev]; rfl) _

end Site

end LM.Transport
