import Verif.Props.C86_LightTracing
import Verif.Props.C86_Example
import Verif.Props.C82_Lamps
import Mathlib.Data.List.NodupEquivFin
/-
  C82 in scenes of triangles with area lights, where measurability and the geometry of intersections with the lights follow from the description of the scene.
-/
namespace LM.Transport
open MeasureTheory LM LM.Surface LM.Material LM.Light LM.MathF LM.Path LM.Render LM.Solid Set
open scoped ENNReal

variable {W : World} {Q : Query} {n : Int} {cam : Camera} {Fs : List (Int × Tri)} {vertex : Int → V3 ℝ → SI} {m : Int → Mat} {C : Int → Finset ℕ} {f : Int → ℕ → V3 ℝ → V3 ℝ → V3 ℝ → V3 ℝ}
variable {node : ℕ → Int} {M : ℕ → Aff ℝ} {sgn : V3 ℝ → Bool} {junk : V3 ℝ} {Ke : ℕ → V3 ℝ} {ts : ℕ → List Tri}

/-- The directions in which a primitive is seen. -/
theorem Faceted.seen (h : Faceted Q Fs vertex) (j : Int) (x : V3 ℝ) : MeasurableSet {d | SeesSky Q j x d} := by
  have hm : Measurable fun d : V3 ℝ => (x, d) := measurable_const.prodMk measurable_id
  refine (congrArg MeasurableSet (Set.ext fun d => ?_)).mp (hm (h.meets j))
  show (∃ p, hitOf Q x d = some (j, p)) ↔ ∃ hit, Q.isect x d = some hit ∧ hit.primitive = j
  unfold hitOf
  cases Q.isect x d with
  | none => simp
  | some hit => simp

theorem Faceted.hits (h : Faceted Q Fs vertex) (hn : ∀ j, Measurable fun p => (vertex j p).geom.n) (hun : ∀ o d, V3.dot d d ≠ 1 → Q.isect o d = none) (j : Int) (x : V3 ℝ) : MeasurableHits Q j x := by
  refine ⟨h.seen j x, ?_⟩
  obtain ⟨P, hP, hp⟩ := h.point j
  have hPx : Measurable fun d : V3 ℝ => P (x, d) := hP.comp (measurable_const.prodMk measurable_id)
  refine ⟨fun d => P (x, d), fun d => (vertex j (P (x, d))).geom.n, hPx, (hn j).comp hPx, fun d hit hi hj => ?_⟩
  have hd : V3.dot d d = 1 := by
    by_contra hd
    rw [hun x d hd] at hi; cases hi
  have h1 : hit.geom.p = P (x, d) := hp (x, d) _ (by simp [hitOf, hi, hj])
  refine ⟨h1, ?_⟩
  show hit.geom.n = (vertex j (P (x, d))).geom.n
  rw [← h1, ← hj]
  exact congrArg (·.geom.n) (h.same x d hit hd hi)

/-- The points of a primitive that are seen. -/
theorem Faceted.seesPoint (h : Faceted Q Fs vertex) (j : Int) (x : V3 ℝ) : MeasurableSet {p | SeesPoint Q j x p} := by
  have hs : MeasurableSet {p : V3 ℝ | Sees Q x j p} := (measurable_const.prodMk measurable_id') (h.measurable_sees j)
  refine (congrArg MeasurableSet (Set.ext fun p => ?_)).mp hs
  show hitOf Q x (dirOf (p - x)) = some (j, p) ↔ ∃ hit, Q.isect x (dirOf (p - x)) = some hit ∧ hit.primitive = j ∧ hit.geom.p = p
  unfold hitOf
  cases hi : Q.isect x (dirOf (p - x)) with
  | none => simp
  | some hit => simp

/-- The lights of a scene of triangles, seen from a vertex of a path, meet the requirements of light sampling. -/
theorem Lamps.lightAtOf (hF : Faceted Q Fs vertex) (hn : ∀ j, Measurable fun p => (vertex j p).geom.n) (h : Lamps W Fs vertex node M sgn junk Ke ts) (hun : ∀ o d, V3.dot d d ≠ 1 → Q.isect o d = none) {sp : SI} (hf : sp.geom.infinite = false)
    (hvis : ∀ l < W.st.lights.length, ∀ g : Geom, g.infinite = false → ∀ t ∈ ts l, Inside (triMap (M l) t) g.p → V3.dot (triCross (triMap (M l) t)) (g.p - sp.geom.p) ≠ 0 → (Q.visible sp ⟨.light, node l, g⟩ = true ↔ SeesPoint Q (node l) sp.geom.p g.p)) :
    ∀ l < W.st.lights.length, LightAt Q (node l) (M l) sp (area sgn junk (Ke l) (ts l)) := by
  intro l hl
  obtain ⟨hA, hM, hS⟩ := h.size l hl
  refine LightAt.area sgn junk (Ke l) (ts l) hA hM hS (h.nonneg l hl) ⟨hf, hvis l hl, hF.seesPoint _ _, ?_, ?_⟩ (hF.hits hn hun _ _)
  · intro d hit hd hi _
    have hs := hF.same _ d hit hd hi
    have ha := hF.at_point hit.primitive hit.geom.p
    refine ⟨by rw [hs]; exact ha.2.2.1, by rw [hs]; exact ha.2.2.2, hF.ahead _ d hit hd hi⟩
  · filter_upwards [hF.once sp.geom.p] with d ho hit hi hj
    have hd : V3.dot d d = 1 := by
      by_contra hd
      rw [hun _ d hd] at hi; cases hi
    obtain ⟨K, t, hK, hin, huniq⟩ := ho hit hi
    have hfil := h.faces l hl
    have hmem : (node l, t) ∈ Fs.filter (·.1 = node l) := List.mem_filter.2 ⟨by rw [← hj]; exact List.mem_of_getElem? hK, by simp⟩
    rw [hfil] at hmem
    obtain ⟨t0, ht0, e0⟩ := List.mem_map.1 hmem
    have e0 : triMap (M l) t0 = t := (Prod.mk.inj e0).2
    obtain ⟨k, hk⟩ := List.getElem?_of_mem ht0
    refine ⟨k, t0, hk, by rw [e0]; exact hin, ?_, ?_⟩
    · rw [hF.same _ d hit hd hi, hj]
      exact h.flat l hl t0 ht0 _ (by rw [e0]; exact hin)
    · intro k' t' hk' hin'
      have hs : ((ts l).map fun t => (node l, triMap (M l) t)).Sublist Fs := hfil ▸ List.filter_sublist
      obtain ⟨e, he⟩ := List.sublist_iff_exists_orderEmbedding_getElem?_eq.1 hs
      have h1 := he k
      have h2 := he k'
      rw [List.getElem?_map, hk, Option.map_some] at h1
      rw [List.getElem?_map, hk', Option.map_some] at h2
      rw [← hj] at h1 h2
      have u1 := huniq _ _ h1.symm (by rw [e0]; exact hin)
      have u2 := huniq _ _ h2.symm hin'
      exact e.injective (u2.trans u1.symm)

theorem Lamps.lightAt (hm : Matte W Q n cam Fs vertex m C f) (h : Lamps W Fs vertex node M sgn junk Ke ts) (hun : ∀ o d, V3.dot d d ≠ 1 → Q.isect o d = none) {sp : SI} (hf : sp.geom.infinite = false)
    (hvis : ∀ l < W.st.lights.length, ∀ g : Geom, g.infinite = false → ∀ t ∈ ts l, Inside (triMap (M l) t) g.p → V3.dot (triCross (triMap (M l) t)) (g.p - sp.geom.p) ≠ 0 → (Q.visible sp ⟨.light, node l, g⟩ = true ↔ SeesPoint Q (node l) sp.geom.p g.p)) :
    ∀ l < W.st.lights.length, LightAt Q (node l) (M l) sp (area sgn junk (Ke l) (ts l)) :=
  h.lightAtOf hm.faceted hm.normal hun hf hvis

/-- C82. What the path tracer computes in scenes of triangles with area lights whose materials have BSDFs, in every sampling mode: the integral over the film of the radiance arriving along the primary rays. The only
    requirement on the queries beside the description of the triangles: between a vertex of a path and a point of a light that is not seen edge-on, visibility agrees with intersection. -/
theorem C82_triangles (hm : Matte W Q n cam Fs vertex m C f) (h : Lamps W Fs vertex node M sgn junk Ke ts) (i : Fin 3) (comps : SI → V3 ℝ → Finset ℕ) (hcomp : ∀ j ∈ Fs.map (·.1), ∀ p wi, comps (vertex j p) wi = C j)
    (hsingle : comps (camVertex W n cam) 0 = {0}) (hun : ∀ o d, V3.dot d d ≠ 1 → Q.isect o d = none)
    (hvis : ∀ sp wi, Vertex W Q n cam sp wi → ∀ l < W.st.lights.length, ∀ g : Geom, g.infinite = false → ∀ t ∈ ts l, Inside (triMap (M l) t) g.p → V3.dot (triCross (triMap (M l) t)) (g.p - sp.geom.p) ≠ 0 → (Q.visible sp ⟨.light, node l, g⟩ = true ↔ SeesPoint Q (node l) sp.geom.p g.p))
    (cfg : Cfg) (dir : ℝ × ℝ → V3 ℝ) (hdir : ∀ q, primaryRay cam q.1 q.2 = some (dir q)) (H : ℝ × ℝ → ℝ≥0∞) (hH : Measurable H) (u : RaySampleU) (uc : ℝ) (rs : ℕ → Rnd) :
    average (cfg.maxVerts - 1) 1 rs (fun rs' => measured i H (ptSample W Q cfg u uc rs')) = ∫⁻ q, H q * (optics W Q i comps).incoming (cfg.maxVerts - 1) (camVertex W n cam) (dir q) ∂uniform2 := by
  have hE := h.measurable hm i
  have hEe : ∀ j ∈ Fs.map (·.1), ∀ p w, emitted W i (vertex j p) w = emission W Fs vertex i (j, p) w := fun j hj p w => (if_pos hj).symm
  refine C82_lamps (hm.regular hcomp hsingle) hm.camera h.table (fun sp wi hv => h.lightAt hm hun ?_ (hvis sp wi hv)) (fun o d hit hi hL => ?_) i (fun k sp _ _ => hm.measurable_incoming i hcomp hE hEe hun k sp) cfg dir hdir H hH u uc rs
  · rcases hv with ⟨e, _⟩ | ⟨_, _, _, _, hf, _⟩
    · rw [e]; rfl
    · exact hf
  · have hd : V3.dot d d = 1 := by
      by_contra hd
      rw [hun o d hd] at hi; cases hi
    obtain ⟨L, hL⟩ := Option.isSome_iff_exists.1 hL
    exact h.only _ (hm.face o d hit hd hi).1 L hL

/-- C86. Light tracing and path tracing compute the same image, up to the lights that the camera sees, whatever the sampling mode of the path tracer. Missing: as for `C86_lt_partial`. -/
theorem C86_all_modes_partial (hm : Matte W Q n cam Fs vertex m C f) (h : Lamps W Fs vertex node M sgn junk Ke ts) (i : Fin 3) (comps : SI → V3 ℝ → Finset ℕ) (hcomp : ∀ j ∈ Fs.map (·.1), ∀ p wi, comps (vertex j p) wi = C j)
    (hsingle : comps (camVertex W n cam) 0 = {0}) (hun : ∀ o d, V3.dot d d ≠ 1 → Q.isect o d = none)
    (hvis : ∀ sp wi, Vertex W Q n cam sp wi → ∀ l < W.st.lights.length, ∀ g : Geom, g.infinite = false → ∀ t ∈ ts l, Inside (triMap (M l) t) g.p → V3.dot (triCross (triMap (M l) t)) (g.p - sp.geom.p) ≠ 0 → (Q.visible sp ⟨.light, node l, g⟩ = true ↔ SeesPoint Q (node l) sp.geom.p g.p))
    (H : ℝ × ℝ → ℝ≥0∞) (hH : Measurable H) (N : ℕ) (hN : 2 ≤ N) (mode mode' : Mode) (px px' : Bool) (u : RaySampleU) (uc : ℝ) (rs : ℕ → Rnd) :
    averageLight (fun u => ∫⁻ uc, average (N - 2) 2 rs (fun rs' => measured i H (ltSample W Q N u uc rs')) ∂uniform1) + average 1 1 rs (fun rs' => measured i H (ptSample W Q ⟨mode', px', 2⟩ u uc rs')) =
      average (N - 1) 1 rs (fun rs' => measured i H (ptSample W Q ⟨mode, px, N⟩ u uc rs')) := by
  have hdir : ∀ q : ℝ × ℝ, ∃ d, primaryRay cam q.1 q.2 = some d := fun q => ⟨_, (C47_primary cam hm.proper q.1 q.2).choose_spec.1⟩
  choose dir hdir using hdir
  rw [C82_triangles hm h i comps hcomp hsingle hun hvis ⟨mode, px, N⟩ dir hdir H hH u uc rs]
  have h2 := C82_triangles hm h i comps hcomp hsingle hun hvis ⟨mode', px', 2⟩ dir hdir H hH u uc rs
  rw [show (⟨mode', px', 2⟩ : Cfg).maxVerts - 1 = 1 from rfl] at h2
  rw [h2]
  exact C86_lt_partial hm h i comps hcomp dir hdir H hH N hN rs

/-! ### Concrete scene: that of C86_Example, with a visibility test that goes both ways -/

open Classical in
noncomputable def exBothQ : Query where
  isect := glowIsect
  visible s1 s2 := exGlowQ.visible s1 s2 || exGlowQ.visible s2 s1

theorem both_faceted : Faceted exBothQ exFaces glowAt where
  area := exGlow_faceted.area
  at_point := exGlow_faceted.at_point
  normal := exGlow_faceted.normal
  same := exGlow_faceted.same
  ahead := exGlow_faceted.ahead
  once := exGlow_faceted.once
  both := exGlow_faceted.both
  meets := exGlow_faceted.meets
  point := exGlow_faceted.point
  gn := exGlow_faceted.gn

theorem glow_visible_iff (s1 s2 : SI) : exGlowQ.visible s1 s2 = true ↔ (exGlowQ.isect s2.geom.p (dirOf (s1.geom.p - s2.geom.p))).map (fun h => h.geom.p) = some s1.geom.p := by
  show decide _ = true ↔ _
  rw [decide_eq_true_iff]; rfl

theorem both_matte : Matte exGlowing exBothQ 3 exCam exFaces glowAt (fun _ => diffuse fun _ => V3.all (1 / 2)) (fun _ => {0}) glowF where
  camera := exGlow_matte.camera
  cameraAt := exGlow_matte.cameraAt
  proper := exGlow_matte.proper
  faceted := both_faceted
  face := exGlow_matte.face
  surface := exGlow_matte.surface
  normal := exGlow_matte.normal
  material := exGlow_matte.material
  eval := exGlow_matte.eval
  measurable := exGlow_matte.measurable
  reciprocal := exGlow_matte.reciprocal
  sight g hg := by
    filter_upwards [exGlow_matte.sight g hg] with p hp
    refine ⟨hp.1, ?_⟩
    rw [show (exBothQ.visible (glowAt g.1 p) (camVertex exGlowing 3 exCam) = true ↔ Sees exBothQ exCam.position g.1 p) ↔ ((exGlowQ.visible (glowAt g.1 p) (camVertex exGlowing 3 exCam) || exGlowQ.visible (camVertex exGlowing 3 exCam) (glowAt g.1 p)) = true ↔ Sees exGlowQ exCam.position g.1 p) from Iff.rfl, Bool.or_eq_true, hp.2]
    refine or_iff_left fun h => ?_
    rw [glow_visible_iff] at h
    cases e : exGlowQ.isect (glowAt g.1 p).geom.p (dirOf ((camVertex exGlowing 3 exCam).geom.p - (glowAt g.1 p).geom.p)) with
    | none => rw [e] at h; cases h
    | some hit =>
      rw [e] at h
      have h : hit.geom.p = (camVertex exGlowing 3 exCam).geom.p := Option.some.inj h
      have hc : (camVertex exGlowing 3 exCam).geom.p.z = 0 := rfl
      rcases glow_isect e with ⟨hm, rfl⟩ | ⟨hm, rfl⟩
      · have h1 := ((glowTri_inside _).mp hm.2.2.2).2.2.2
        have h3 := (glow_p 1 _).symm.trans h
        rw [h3, hc] at h1; norm_num at h1
      · have h1 := ((lampTri_inside _).mp hm.2.2.2).2.2.2
        have h3 := (glow_p 2 _).symm.trans h
        rw [h3, hc] at h1; norm_num at h1

theorem both_visible (sp : SI) (g : Geom) (hi : Inside glowTri g.p) : exBothQ.visible sp ⟨.light, 1, g⟩ = true ↔ SeesPoint exBothQ 1 sp.geom.p g.p := by
  show (exGlowQ.visible sp ⟨.light, 1, g⟩ || exGlowQ.visible ⟨.light, 1, g⟩ sp) = true ↔ SeesPoint exGlowQ 1 sp.geom.p g.p
  rw [Bool.or_eq_true]
  have hg := (glowTri_inside _).mp hi
  have hs : Sees exGlowQ sp.geom.p 1 g.p ↔ SeesPoint exGlowQ 1 sp.geom.p g.p := by
    show hitOf exGlowQ sp.geom.p (dirOf (g.p - sp.geom.p)) = some (1, g.p) ↔ ∃ hit, exGlowQ.isect sp.geom.p (dirOf (g.p - sp.geom.p)) = some hit ∧ hit.primitive = 1 ∧ hit.geom.p = g.p
    unfold hitOf
    cases exGlowQ.isect sp.geom.p (dirOf (g.p - sp.geom.p)) <;> simp
  have h2 := glow_visible (s1 := ⟨.light, 1, g⟩) (s2 := sp) (g := (1, glowTri)) (by simp [exFaces]) hi
  rw [h2, ← hs]
  refine or_iff_right_of_imp fun h => ?_
  rw [glow_visible_iff] at h
  cases e : exGlowQ.isect g.p (dirOf (sp.geom.p - g.p)) with
  | none => rw [show exGlowQ.isect (SI.mk .light 1 g).geom.p _ = none from e] at h; cases h
  | some hit =>
    rw [show exGlowQ.isect (SI.mk .light 1 g).geom.p _ = some hit from e] at h
    have h : hit.geom.p = sp.geom.p := Option.some.inj h
    rcases glow_isect e with ⟨hm, rfl⟩ | ⟨hm, rfl⟩
    · have := hm.2.1
      rw [hg.2.2.2] at this
      exact absurd this (lt_irrefl _)
    · rw [glow_p] at h
      have h1 := ((lampTri_inside _).mp hm.2.2.2).2.2.2
      rw [h] at h1
      exact glow_seen1 _ _ (by rw [h1]; norm_num) hi

/-- The theorem holds of this scene. -/
example (i : Fin 3) (mode : Mode) (px : Bool) (N : ℕ) (dir : ℝ × ℝ → V3 ℝ) (hdir : ∀ q, primaryRay exCam q.1 q.2 = some (dir q)) (H : ℝ × ℝ → ℝ≥0∞) (hH : Measurable H) (u : RaySampleU) (uc : ℝ) (rs : ℕ → Rnd) :
    average (N - 1) 1 rs (fun rs' => measured i H (ptSample exGlowing exBothQ ⟨mode, px, N⟩ u uc rs')) = ∫⁻ q, H q * (optics exGlowing exBothQ i exComps).incoming (N - 1) (camVertex exGlowing 3 exCam) (dir q) ∂uniform2 :=
  C82_triangles both_matte exGlow_lamps i exComps (fun _ _ _ _ => rfl) rfl glow_unit (fun sp _ _ _ _ g _ t ht hin _ => both_visible sp g (by
    rw [List.mem_singleton] at ht
    subst ht
    rwa [glowTri_map] at hin)) ⟨mode, px, N⟩ dir hdir H hH u uc rs

end LM.Transport
