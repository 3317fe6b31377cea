import Verif.Props.C86_LightTracing
import Verif.Props.C100_Scene
import Verif.Props.C80_Light
/-
  C86: light tracing in scenes with lights without extent.
-/
namespace LM.Transport
open MeasureTheory LM LM.Surface LM.Material LM.Light LM.MathF LM.Path LM.Render LM.Solid Set
open scoped ENNReal

variable {W : World} {Q : Query} {n : Int} {cam : Camera} {Fs : List (Int × Tri)} {vertex : Int → V3 ℝ → SI} {m : Int → Mat} {C : Int → Finset ℕ} {f : Int → ℕ → V3 ℝ → V3 ℝ → V3 ℝ → V3 ℝ}

/-! ### What shines on the surfaces -/

/-- The irradiance of a surface at x facing a light without extent. -/
noncomputable def glare (Q : Query) (vertex : Int → V3 ℝ → SI) (i : Fin 3) (node : Int) (s : Source) (x : Spot) : ℝ≥0∞ := match s.shine x.2 with
  | none => 0
  | some b => if Q.visible (vertex x.1 x.2) ⟨.light, node, b.source⟩ then ENNReal.ofReal (chan i b.irradiance) else 0

/-- The direction towards it. -/
noncomputable def toward (s : Source) (x : Spot) : V3 ℝ := match s.shine x.2 with
  | none => 0
  | some b => b.dir

/-- What is required of a light without extent: the rays it sends out carry to the surfaces what shines on them. -/
structure Thrown (Q : Query) (Fs : List (Int × Tri)) (vertex : Int → V3 ℝ → SI) (i : Fin 3) (node : Int) (M : Aff ℝ) (L : Light) (s : Source) : Prop where
  glare : Measurable (glare Q vertex i node s)
  toward : Measurable (toward s)
  unit : ∀ x, Transport.glare Q vertex i node s x ≠ 0 → V3.dot (Transport.toward s x) (Transport.toward s x) = 1
  rays : ∀ F, Adjoint.Meas F → ∫⁻ p : ℝ × ℝ × ℝ, ∫⁻ q : ℝ × ℝ, worthRay i (fun g wo => Adjoint.back (fun x d => hitOf Q x.2 d) F (0, g.p) wo) (L.sampleRay ⟨p.1, p.2.1, p.2.2, q.1, q.2⟩ M) ∂uniform2 ∂uniform3 =
    ∫⁻ x, Transport.glare Q vertex i node s x * (slant vertex x (Transport.toward s x) * F x (Transport.toward s x)) ∂surf Fs
  first : ∀ R : Spot → Prop, (∀ g ∈ Fs, ∀ᵐ p ∂triMeasure g.2, R (g.1, p)) → ∀ᵐ p ∂uniform3, ∀ᵐ q ∂uniform2,
    ∃ g wo K, L.sampleRay ⟨p.1, p.2.1, p.2.2, q.1, q.2⟩ M = .ok g wo K ∧ NonNeg K ∧ V3.dot wo wo = 1 ∧ ∀ x, hitOf Q g.p wo = some x → R x

/-! ### Point lights -/

theorem sphere_null {P : V3 ℝ → Prop} (hP : ∀ᵐ d ∂solidAngle, P d) : ∀ᵐ q ∂uniform2, P (sampleUniformSphere q.1 q.2) := by
  have h1 : ∀ᵐ d ∂uniform2.map (fun u => sampleUniformSphere u.1 u.2), P d := by
    rw [C80_sphere]
    exact Measure.ae_smul_measure hP _
  exact ae_of_ae_map measurable_sphere.aemeasurable h1

/-- A point light in a scene of triangles: it is not hit by rays, and visible from the points it sees. -/
structure PointLamp (Q : Query) (Fs : List (Int × Tri)) (vertex : Int → V3 ℝ → SI) (node : Int) (I p junk : V3 ℝ) : Prop where
  nonneg : NonNeg I
  seen : ∀ g ∈ Fs, ∀ᵐ x ∂triMeasure g.2, Q.visible (vertex g.1 x) ⟨.light, node, makeDegenerated p junk⟩ = true ↔ Sees Q p g.1 x
  measurable : ∀ j, MeasurableSet {x | Q.visible (vertex j x) ⟨.light, node, makeDegenerated p junk⟩ = true}

theorem glare_point (Q : Query) (vertex : Int → V3 ℝ → SI) (i : Fin 3) (node : Int) (I p junk : V3 ℝ) (x : Spot) : glare Q vertex i node (.point I p junk) x =
    if Q.visible (vertex x.1 x.2) ⟨.light, node, makeDegenerated p junk⟩ then ENNReal.ofReal (1 / V3.dot (p - x.2) (p - x.2) * chan i I) else 0 := by
  simp only [glare, Source.shine, chan_smul]

theorem toward_point (I p junk : V3 ℝ) (x : Spot) : toward (.point I p junk) x = dirOf (p - x.2) := rfl

theorem PointLamp.thrown (hF : Faceted Q Fs vertex) (i : Fin 3) {node : Int} (M : Aff ℝ) {I p junk : V3 ℝ} (h : PointLamp Q Fs vertex node I p junk) : Thrown Q Fs vertex i node M (Light.point I p junk) (.point I p junk) := by
  have hgm : Measurable (glare Q vertex i node (.point I p junk)) := by
    have h1 : Measurable fun q : Spot × V3 ℝ => glare Q vertex i node (.point I p junk) q.1 := by
      refine measurable_spot (F := fun x (_ : V3 ℝ) => glare Q vertex i node (.point I p junk) x) fun j => ?_
      simp_rw [glare_point]
      have hd : Measurable fun x : V3 ℝ => p - x := measurable_sub3' measurable_const measurable_id'
      have h2 : Measurable fun x : V3 ℝ => if Q.visible (vertex j x) ⟨.light, node, makeDegenerated p junk⟩ = true then ENNReal.ofReal (1 / V3.dot (p - x) (p - x) * chan i I) else 0 :=
        Measurable.ite (h.measurable j) (((measurable_dot3 hd hd).const_div 1).mul_const _).ennreal_ofReal measurable_const
      exact h2.comp measurable_fst
    exact h1.comp (measurable_id'.prodMk (measurable_const (a := (0 : V3 ℝ))))
  have htm : Measurable (toward (.point I p junk)) := measurable_dirOf.comp (measurable_sub3' measurable_const measurable_snd)
  refine ⟨hgm, htm, fun x hx => ?_, fun F hFm => ?_, fun R hR => ?_⟩
  · rw [toward_point]
    have hne : V3.dot (p - x.2) (p - x.2) ≠ 0 := by
      intro e
      apply hx
      rw [glare_point, e]
      simp
    exact (dirOf_spec (lt_of_le_of_ne (dot_self_nonneg _) (Ne.symm hne))).1
  · have hone : ∀ (u : RayU), (Light.point I p junk).sampleRay u M = .ok (makeDegenerated p junk) (sampleUniformSphere u.ud0 u.ud1) ((1 / pdfSphere) • I) := fun u => by
      simp only [Light.point, ray, divV, pdfSphere_pos.ne', if_false]
    simp_rw [hone]
    simp only [worthRay, chan_smul]
    have hb : Measurable fun d => Adjoint.back (fun x d => hitOf Q x.2 d) F (0, p) d := (hF.measurable_back hFm).from (0, p)
    rw [int3_const]
    have := lintegral_sphere (f := fun d => ENNReal.ofReal (1 / pdfSphere * chan i I) * Adjoint.back (fun x d => hitOf Q x.2 d) F (0, p) d) (hb.const_mul _)
    refine Eq.trans this ?_
    have e1 : ∀ d, ENNReal.ofReal pdfSphere * (ENNReal.ofReal (1 / pdfSphere * chan i I) * Adjoint.back (fun x d => hitOf Q x.2 d) F (0, p) d) =
        match hitOf Q p d with | none => 0 | some x => ENNReal.ofReal (chan i I) * F x (-d) := fun d => by
      have e2 : ENNReal.ofReal pdfSphere * ENNReal.ofReal (1 / pdfSphere * chan i I) = ENNReal.ofReal (chan i I) := by
        rw [← ENNReal.ofReal_mul pdfSphere_pos.le, ← mul_assoc, mul_one_div_cancel pdfSphere_pos.ne', one_mul]
      rw [← mul_assoc, e2]
      unfold Adjoint.back
      dsimp only
      cases hitOf Q p d <;> simp
    simp_rw [e1]
    have hFj : ∀ j, Measurable fun q : V3 ℝ × V3 ℝ => ENNReal.ofReal (chan i I) * F (j, q.1) (-q.2) := fun j =>
      (hFm.comp ((measurable_const.prodMk measurable_fst).prodMk (measurable_neg3.comp measurable_snd))).const_mul _
    refine (hF.over p (F := fun x d => ENNReal.ofReal (chan i I) * F x (-d)) hFj).trans ?_
    have hall : Measurable fun x : Spot => glare Q vertex i node (.point I p junk) x * (slant vertex x (toward (.point I p junk) x) * F x (toward (.point I p junk) x)) := hgm.mul ((hF.measurable_slant.at htm).mul (hFm.at htm))
    rw [lintegral_surf hall]
    refine congrArg List.sum (List.map_congr_left fun g hg => lintegral_congr_ae (((inside_ae g.2).and (h.seen g hg)).mono fun x hx => ?_))
    obtain ⟨hx, hv⟩ := hx
    beta_reduce
    rw [glare_point, toward_point]
    dsimp only
    by_cases hs : Sees Q p g.1 x
    · rw [if_pos hs, if_pos (hv.mpr hs), hF.slant_eq hg hx, dirOf_swap p x, V3.dot_neg_right, abs_neg]
      unfold geo
      have e3 : V3.dot (p - x) (p - x) = V3.dot (x - p) (x - p) := by simp [V3.dot]; ring
      rw [e3, div_eq_mul_inv, one_div, ENNReal.ofReal_mul (abs_nonneg _), ENNReal.ofReal_mul (inv_nonneg.mpr (dot_self_nonneg _))]
      ring
    · rw [if_neg hs, if_neg fun hc => hs (hv.mp hc), mul_zero, zero_mul]
  · refine Filter.Eventually.of_forall fun _ => (sphere_null (solidAngle_unit.and (hF.almost hR p))).mono fun q hq => ?_
    refine ⟨makeDegenerated p junk, sampleUniformSphere q.1 q.2, (1 / pdfSphere) • I, ?_, nonneg_smul (one_div_nonneg.mpr pdfSphere_pos.le) h.nonneg, hq⟩
    simp only [Light.point, ray, divV, pdfSphere_pos.ne', if_false]

/-! ### The lights of a scene -/

/-- An area light of a scene of triangles: the mesh `ts` under the transform M, which emits Ke to its front and is not smoothed by shading normals. -/
structure AreaLamp (Fs : List (Int × Tri)) (vertex : Int → V3 ℝ → SI) (node : Int) (M : Aff ℝ) (Ke : V3 ℝ) (ts : List Tri) : Prop where
  size : 0 < (ts.map triArea).sum ∧ M.det ≠ 0 ∧ ScalesArea M ts
  nonneg : NonNeg Ke
  /-- the triangles of the light are surfaces of the scene -/
  faces : Fs.filter (·.1 = node) = ts.map fun t => (node, triMap M t)
  flat : ∀ t ∈ ts, ∀ p, Inside (triMap M t) p → (vertex node p).geom.n = frontNormal M t

/-- What is required of a light at infinity: its rays carry to the surfaces the radiance `S x w` that arrives at x from direction w. -/
structure Cast (Q : Query) (Fs : List (Int × Tri)) (vertex : Int → V3 ℝ → SI) (i : Fin 3) (M : Aff ℝ) (L : Light) (S : Spot → V3 ℝ → ℝ≥0∞) : Prop where
  sky : Adjoint.Meas S
  rays : ∀ F, Adjoint.Meas F → ∫⁻ p : ℝ × ℝ × ℝ, ∫⁻ q : ℝ × ℝ, worthRay i (fun g wo => Adjoint.back (fun x d => hitOf Q x.2 d) F (0, g.p) wo) (L.sampleRay ⟨p.1, p.2.1, p.2.2, q.1, q.2⟩ M) ∂uniform2 ∂uniform3 =
    Adjoint.pair (surf Fs) solidAngle (slant vertex) S F
  first : ∀ R : Spot → Prop, (∀ g ∈ Fs, ∀ᵐ p ∂triMeasure g.2, R (g.1, p)) → ∀ᵐ p ∂uniform3, ∀ᵐ q ∂uniform2,
    ∃ g wo K, L.sampleRay ⟨p.1, p.2.1, p.2.2, q.1, q.2⟩ M = .ok g wo K ∧ NonNeg K ∧ V3.dot wo wo = 1 ∧ ∀ x, hitOf Q g.p wo = some x → R x

/-- The lights of a scene of triangles: each is an area light, a light without extent, or a light at infinity, from which the radiance `sky l` arrives at the surfaces. -/
structure Bulbs (W : World) (Q : Query) (Fs : List (Int × Tri)) (vertex : Int → V3 ℝ → SI) (i : Fin 3) (node : ℕ → Int) (M : ℕ → Aff ℝ) (Lt : ℕ → Light) (src : ℕ → Source) (sky : ℕ → Spot → V3 ℝ → ℝ≥0∞) : Prop where
  table : LightTable W node M Lt
  /-- every primitive with a light is in the table of lights -/
  only : ∀ j ∈ Fs.map (·.1), ∀ L, W.lightAt j = some L → ∃ l < W.st.lights.length, j = node l
  each : ∀ l < W.st.lights.length, (src l = .extended ∧ sky l = 0 ∧ ∃ sgn junk Ke ts, Lt l = area sgn junk Ke ts ∧ AreaLamp Fs vertex (node l) (M l) Ke ts) ∨
    (sky l = 0 ∧ node l ∉ Fs.map (·.1) ∧ Thrown Q Fs vertex i (node l) (M l) (Lt l) (src l)) ∨
    (src l = .extended ∧ node l ∉ Fs.map (·.1) ∧ Cast Q Fs vertex i (M l) (Lt l) (sky l))

variable {node : ℕ → Int} {M : ℕ → Aff ℝ} {Lt : ℕ → Light} {src : ℕ → Source} {sky : ℕ → Spot → V3 ℝ → ℝ≥0∞} {i : Fin 3}

theorem emission_of (hpr : ∀ j p, (vertex j p).primitive = j) (i : Fin 3) {j : Int} (hj : j ∈ Fs.map (·.1)) {sgn junk Ke ts} (hL : W.lightAt j = some (area sgn junk Ke ts)) (p w : V3 ℝ) :
    emission W Fs vertex i (j, p) w = front i Ke (vertex j p).geom.n w := by
  unfold emission
  rw [if_pos hj]
  unfold emitted
  dsimp only
  rw [hpr, hL]
  rfl

theorem Bulbs.measurable (hm : Matte W Q n cam Fs vertex m C f) (h : Bulbs W Q Fs vertex i node M Lt src sky) : Adjoint.Meas (emission W Fs vertex i) := by
  refine measurable_spot fun j => ?_
  have hpr : ∀ j p, (vertex j p).primitive = j := fun j p => (hm.faceted.at_point j p).1
  by_cases hj : j ∈ Fs.map (·.1)
  · cases hL : W.lightAt j with
    | none => simp_rw [emission_none hpr i hL]; exact measurable_const
    | some L =>
      obtain ⟨l, hl, rfl⟩ := h.only j hj L hL
      rcases h.each l hl with ⟨_, _, sgn, junk, Ke, ts, e, _⟩ | ⟨_, hn, _⟩ | ⟨_, hn, _⟩
      · have hL' := h.table.light l hl
        rw [e] at hL'
        simp_rw [emission_of hpr i hj hL']
        exact measurable_front' i Ke ((hm.normal (node l)).comp measurable_fst) measurable_snd
      · exact absurd hj hn
      · exact absurd hj hn
  · have : ∀ q : V3 ℝ × V3 ℝ, emission W Fs vertex i (j, q.1) q.2 = 0 := fun q => if_neg hj
    simp_rw [this]
    exact measurable_const

theorem glare_extended (Q : Query) (vertex : Int → V3 ℝ → SI) (i : Fin 3) (node : Int) (x : Spot) : glare Q vertex i node .extended x = 0 := rfl

/-- What the lights without extent carry to the surfaces, weighted with F. -/
noncomputable def glared (W : World) (Q : Query) (Fs : List (Int × Tri)) (vertex : Int → V3 ℝ → SI) (i : Fin 3) (node : ℕ → Int) (src : ℕ → Source) (F : Spot → V3 ℝ → ℝ≥0∞) : ℝ≥0∞ :=
  ∑ l ∈ Finset.range W.st.lights.length, ∫⁻ x, glare Q vertex i (node l) (src l) x * (slant vertex x (toward (src l) x) * F x (toward (src l) x)) ∂surf Fs

/-- What the lights at infinity carry to the surfaces, weighted with F. -/
noncomputable def skied (W : World) (Fs : List (Int × Tri)) (vertex : Int → V3 ℝ → SI) (sky : ℕ → Spot → V3 ℝ → ℝ≥0∞) (F : Spot → V3 ℝ → ℝ≥0∞) : ℝ≥0∞ :=
  ∑ l ∈ Finset.range W.st.lights.length, Adjoint.pair (surf Fs) solidAngle (slant vertex) (sky l) F

theorem pair_zero (cs F : Spot → V3 ℝ → ℝ≥0∞) : Adjoint.pair (surf Fs) solidAngle cs 0 F = 0 := by
  unfold Adjoint.pair
  simp

/-- The rays of the lights carry the light that they emit. -/
theorem Bulbs.rays (hm : Matte W Q n cam Fs vertex m C f) (h : Bulbs W Q Fs vertex i node M Lt src sky) {G : Spot → V3 ℝ → ℝ≥0∞} (hG : Adjoint.Meas G) :
    averageLight (fun u => rayWorth i (fun sp wo => Adjoint.back (fun x d => hitOf Q x.2 d) G (0, sp.geom.p) wo) (samplePrimaryRay W u .LE)) =
      Adjoint.pair (surf Fs) solidAngle (slant vertex) (emission W Fs vertex i) (Adjoint.back (fun x d => hitOf Q x.2 d) G) + glared W Q Fs vertex i node src G + skied W Fs vertex sky G := by
  have hpr : ∀ j p, (vertex j p).primitive = j := fun j p => (hm.faceted.at_point j p).1
  have hE := h.measurable hm
  have hsl := hm.faceted.measurable_slant
  have hF := hm.faceted.measurable_back hG
  have hall : Adjoint.Meas fun (x : Spot) (d : V3 ℝ) => slant vertex x d * (emission W Fs vertex i x d * Adjoint.back (fun x d => hitOf Q x.2 d) G x d) := hsl.mul (hE.mul hF)
  rw [rays_average h.table]
  unfold glared skied
  rw [show Adjoint.pair (surf Fs) solidAngle (slant vertex) (emission W Fs vertex i) (Adjoint.back (fun x d => hitOf Q x.2 d) G) = ∫⁻ x, ∫⁻ d, slant vertex x d * (emission W Fs vertex i x d * Adjoint.back (fun x d => hitOf Q x.2 d) G x d) ∂solidAngle ∂surf Fs from rfl,
    lintegral_surf hall.lintegral_prod_right']
  rw [sum_by_node Fs _ W.st.lights.length node, ← Finset.sum_add_distrib, ← Finset.sum_add_distrib]
  · refine Finset.sum_congr rfl fun l hl => ?_
    have hl := Finset.mem_range.mp hl
    have hnone : node l ∉ Fs.map (·.1) → Fs.filter (·.1 = node l) = [] := fun hn => by
      rw [List.filter_eq_nil_iff]
      intro g hg hc
      exact hn (List.mem_map.mpr ⟨g, hg, by simpa using hc⟩)
    rcases h.each l hl with ⟨es, ek, sgn, junk, Ke, ts, eL, ha⟩ | ⟨ek, hn, ht⟩ | ⟨es, hn, ht⟩
    · have hL' := h.table.light l hl
      rw [eL] at hL'
      obtain ⟨hA, hM, hS⟩ := ha.size
      have hΦ : Measurable fun q : V3 ℝ × V3 ℝ => Adjoint.back (fun x d => hitOf Q x.2 d) G (0, q.1) q.2 := hF.pin 0
      have := area_emission sgn junk Ke ts (M l) hA hM hS i (Φ := fun p d => Adjoint.back (fun x d => hitOf Q x.2 d) G (0, p) d) hΦ
      rw [eL, this, ha.faces, List.map_map, es, ek, pair_zero]
      simp only [glare_extended, zero_mul, lintegral_zero, add_zero]
      refine congrArg List.sum (List.map_congr_left fun t ht => ?_)
      have hg : (node l, triMap (M l) t) ∈ Fs := by
        have : (node l, triMap (M l) t) ∈ Fs.filter (·.1 = node l) := by rw [ha.faces]; exact List.mem_map.mpr ⟨t, ht, rfl⟩
        exact (List.mem_filter.mp this).1
      have hj : node l ∈ Fs.map (·.1) := List.mem_map.mpr ⟨_, hg, rfl⟩
      show _ = ∫⁻ p, ∫⁻ d, slant vertex (node l, p) d * (emission W Fs vertex i (node l, p) d * Adjoint.back (fun x d => hitOf Q x.2 d) G (node l, p) d) ∂solidAngle ∂triMeasure (triMap (M l) t)
      refine lintegral_congr_ae ((inside_ae (triMap (M l) t)).mono fun p hp => lintegral_congr fun d => ?_)
      have e := hm.faceted.slant_eq hg hp d
      have e1 := emission_of hpr i hj hL' p d
      have h0 : 0 < twiceArea (triMap (M l) t) := hm.faceted.area (node l, triMap (M l) t) hg
      have e2 := front_slant (t := t) hM h0 d
      have e3 : Adjoint.back (fun x d => hitOf Q x.2 d) G (0, p) d = Adjoint.back (fun x d => hitOf Q x.2 d) G (node l, p) d := rfl
      rw [ha.flat t ht p hp] at e1
      dsimp only at e
      rw [e, e1, e2, e3]
    · rw [hnone hn, List.map_nil, List.sum_nil, zero_add, ek, pair_zero, add_zero]
      exact ht.rays G hG
    · rw [hnone hn, List.map_nil, List.sum_nil, zero_add, es]
      simp only [glare_extended, zero_mul, lintegral_zero, zero_add]
      exact ht.rays G hG
  · intro a ha b hb e
    have h1 := h.table.index a ha
    have h2 := h.table.index b hb
    rw [e, h2] at h1
    exact (Option.some.inj h1).symm
  · intro g hg hn
    have hL : W.lightAt g.1 = none := by
      cases hL : W.lightAt g.1 with
      | none => rfl
      | some L =>
        obtain ⟨l, hl, e⟩ := h.only g.1 (List.mem_map.mpr ⟨g, hg, rfl⟩) L hL
        exact absurd e (hn l hl)
    dsimp only
    simp_rw [emission_none hpr i hL]
    simp

/-- Almost every first ray is defined and meets points with a property that almost all points have. -/
theorem Bulbs.first (hm : Matte W Q n cam Fs vertex m C f) (h : Bulbs W Q Fs vertex i node M Lt src sky) {R : Spot → Prop} (hR : ∀ g ∈ Fs, ∀ᵐ p ∂triMeasure g.2, R (g.1, p)) :
    ∀ᵐ s ∂uniform1, ∀ᵐ p ∂uniform3, ∀ᵐ q ∂uniform2, ∃ sp wo K, samplePrimaryRay W ⟨p.1, p.2.1, s, p.2.2, q.1, q.2⟩ .LE = .ok sp wo K ∧ NonNeg K ∧ V3.dot wo wo = 1 ∧ ∀ x, hitOf Q sp.geom.p wo = some x → R x := by
  have hnR : (0 : ℝ) < W.st.lights.length := by exact_mod_cast h.table.pos
  refine uniform1_ae.mono fun s hs => ?_
  obtain ⟨l, hl, _, e⟩ := h.table.select s hs.1 hs.2
  have key : ∀ (u : RayU) g wo K, (Lt l).sampleRay u (M l) = .ok g wo K → samplePrimaryRay W ⟨u.up0, u.up1, s, u.upc, u.ud0, u.ud1⟩ .LE = .ok ⟨.light, node l, g⟩ wo ((W.st.lights.length : ℝ) • K) := fun u g wo K hu => by
    have hu : (Lt l).sampleRay ⟨u.up0, u.up1, u.upc, u.ud0, u.ud1⟩ (M l) = .ok g wo K := hu
    simp only [samplePrimaryRay, sampleFromLight, e, h.table.entry l hl, h.table.light l hl, if_true, RaySampleU.toLight, one_div, inv_inv, hu, wrap]
  rcases h.each l hl with ⟨_, _, sgn, junk, Ke, ts, eL, ha⟩ | ⟨_, _, ht⟩ | ⟨_, _, ht⟩
  · obtain ⟨hA, hM, _⟩ := ha.size
    obtain ⟨pA, hp, hp0, _⟩ := transformedInvA_pos ts (M l) hA hM
    have hz : (0 : ℝ) ≤ 0 ∧ (0 : ℝ) < 1 := ⟨le_rfl, one_pos⟩
    refine cube_ae.mono fun p hc => ?_
    have hval : (⟨p.1, p.2.1, p.2.2, 0, 0⟩ : RayU).Valid := ⟨hc.1, hc.2.1, hc.2.2, hz, hz⟩
    obtain ⟨g, t, e', _, _, _, _, hon, _⟩ := sampleOnMesh_spec sgn junk ts ⟨p.1, p.2.1, p.2.2, 0, 0⟩ (M l) hval hA hM
    have hFr := frame_of (C32_basis g.n (sgn g.n) hon.2.2.1)
    have hgood : ∀ᵐ d ∂solidAngle, V3.dot d d = 1 ∧ ∀ x, hitOf Q g.p d = some x → R x := solidAngle_unit.and (hm.faceted.almost hR g.p)
    refine (cosine_null hFr hgood).mono fun q hq => ?_
    have e3 : sampleOnMesh sgn junk ts ⟨p.1, p.2.1, p.2.2, q.1, q.2⟩ (M l) = some g := e'
    have hpp : 0 < pA * pdfCosine := mul_pos hp0 pdfCosine_pos
    set wo := cosineAround sgn g ⟨p.1, p.2.1, p.2.2, q.1, q.2⟩ with hwo
    refine ⟨⟨.light, node l, g⟩, wo, (W.st.lights.length : ℝ) • (1 / (pA * pdfCosine)) • areaEval Ke g wo, ?_, ?_, hq⟩
    · refine key ⟨p.1, p.2.1, p.2.2, q.1, q.2⟩ _ _ _ ?_
      simp only [eL, area, e3, hp, Option.map_some, ray, divV, hpp.ne', if_false, ← hwo]
    · refine nonneg_smul hnR.le (nonneg_smul (by positivity) ?_)
      unfold areaEval
      split_ifs
      · exact ⟨le_rfl, le_rfl, le_rfl⟩
      · exact ha.nonneg
  · refine (ht.first R hR).mono fun p hp => hp.mono fun q hq => ?_
    obtain ⟨g, wo, K, eu, hK, hun, hx⟩ := hq
    exact ⟨⟨.light, node l, g⟩, wo, _, key ⟨p.1, p.2.1, p.2.2, q.1, q.2⟩ _ _ _ eu, nonneg_smul hnR.le hK, hun, hx⟩
  · refine (ht.first R hR).mono fun p hp => hp.mono fun q hq => ?_
    obtain ⟨g, wo, K, eu, hK, hun, hx⟩ := hq
    exact ⟨⟨.light, node l, g⟩, wo, _, key ⟨p.1, p.2.1, p.2.2, q.1, q.2⟩ _ _ _ eu, nonneg_smul hnR.le hK, hun, hx⟩

/-- What one sample of the light tracer adds, averaged over its random numbers. -/
theorem lt_average_lit (hm : Matte W Q n cam Fs vertex m C f) (h : Bulbs W Q Fs vertex i node M Lt src sky) {comps : SI → V3 ℝ → Finset ℕ} (hcomp : ∀ j ∈ Fs.map (·.1), ∀ p wi, comps (vertex j p) wi = C j)
    {H : ℝ × ℝ → ℝ≥0∞} (hH : Measurable H) {P : V3 ℝ → ℝ} (hPm : Measurable P) (hP : ∀ d, camPdfDirection cam d = some (P d)) (hP0 : ∀ d, 0 ≤ P d) (N : ℕ) (rs : ℕ → Rnd) :
    averageLight (fun u => ∫⁻ uc, average (N - 2) 2 rs (fun rs' => measured i H (ltSample W Q N u uc rs')) ∂uniform1) =
      Adjoint.pair (surf Fs) solidAngle (slant vertex) (emission W Fs vertex i) (Adjoint.back (fun x d => hitOf Q x.2 d)
        (Adjoint.relay (fun x d => hitOf Q x.2 d) solidAngle (kernel vertex C f i .LE) (recorded W Q cam vertex C f i H P) (N - 2))) +
      glared W Q Fs vertex i node src (Adjoint.relay (fun x d => hitOf Q x.2 d) solidAngle (kernel vertex C f i .LE) (recorded W Q cam vertex C f i H P) (N - 2)) +
      skied W Fs vertex sky (Adjoint.relay (fun x d => hitOf Q x.2 d) solidAngle (kernel vertex C f i .LE) (recorded W Q cam vertex C f i H P) (N - 2)) := by
  have hR := hm.reversible i
  have hrel := hR.relay (hm.measurable_recorded i hH hPm) (N - 2)
  rw [← h.rays hm hrel]
  have hS := hm.sound i hcomp hH hPm hP hP0
  unfold averageLight
  refine lintegral_congr_ae ((h.first hm (R := fun x => ClearAt W Q n cam vertex x) hm.sight).mono fun s hs => lintegral_congr_ae (hs.mono fun p hp => lintegral_congr_ae (hp.mono fun q hq => ?_)))
  obtain ⟨sp, wo, K, e, hK, hwo, hcl⟩ := hq
  dsimp only
  rw [e]
  have hah := (hm.onward i hcomp hH hPm (N - 2)).2 sp 0 wo hwo
  unfold rayWorth
  dsimp only
  rw [← hah]
  unfold ahead ltSample
  simp only [e]
  rw [hS.isect]
  cases hi : Q.isect sp.geom.p wo with
  | none => simp [measured, average_const]
  | some hit =>
    dsimp only
    have hg : Arrived W Q n cam vertex hit (-wo) := ⟨_, wo, hwo, hi, rfl, hcl _ (by simp [hitOf, hi])⟩
    cases hinf : hit.geom.infinite with
    | true => simp [measured, average_const]
    | false =>
      simp only [Bool.false_eq_true, if_false]
      obtain ⟨hpick, hsum⟩ := hS.select _ _ hg
      have key : ∀ᵐ uc ∂uniform1, average (N - 2) 2 rs (fun rs' => measured i H (do
            let (comp, wc) ← sampleComponent W uc hit (-wo)
            walk W (rouletteAt (2 / 10)) (ltBody W Q) rs' (N - 2) 2 ⟨hit, comp, -wo, wc • K, (0, 0)⟩)) =
          ENNReal.ofReal (chan i K) * compWorth (Transport.onward (lightOptics W Q i comps) (sensorAt W Q cam vertex f i H P) (N - 2) hit (-wo)) (sampleComponent W uc hit (-wo)) := by
        refine uniform1_ae.mono fun uc hu => ?_
        obtain ⟨c, w, ec, hc, hw⟩ := hpick uc hu.1 hu.2
        simp only [ec, Option.bind_eq_bind, Option.bind_some, compWorth]
        rw [lt_walk W Q _ i H _ _ hS rs (N - 2) 2 ⟨hit, c, -wo, w • K, (0, 0)⟩ hg hc (nonneg_smul hw hK)]
        dsimp only
        rw [chan_smul, ENNReal.ofReal_mul hw]
        ring
      rw [lintegral_congr_ae key, lintegral_const_mul' _ _ ENNReal.ofReal_ne_top, hsum]

end LM.Transport
