import Verif.Props.C82_Direct
import Verif.Props.C81_Area
/-
  C82: area lights in scenes.
-/
namespace LM.Transport
open MeasureTheory LM LM.Surface LM.Material LM.Light LM.MathF LM.Path LM.Render LM.Solid
open scoped ENNReal

/-- A point inside a triangle. -/
def Inside (t : Tri) (p : V3 ℝ) : Prop := ∃ q ∈ simplex, p = triAt t q

/-- The point p of the primitive `node` is seen from x. -/
def SeesPoint (Q : Query) (node : Int) (x p : V3 ℝ) : Prop := ∃ h, Q.isect x (dirOf (p - x)) = some h ∧ h.primitive = node ∧ h.geom.p = p

/-- What is required of intersections with an area light, whose triangles are `ts`, seen from a vertex sp. -/
structure AreaAt (Q : Query) (node : Int) (M : Aff ℝ) (ts : List Tri) (sp : SI) : Prop where
  finite : sp.geom.infinite = false
  /-- visibility of points of the light, unless it is looked at edge-on, is consistent with intersection -/
  visible : ∀ g : Geom, g.infinite = false → ∀ t ∈ ts, Inside (triMap M t) g.p → V3.dot (triCross (triMap M t)) (g.p - sp.geom.p) ≠ 0 → (Q.visible sp ⟨.light, node, g⟩ = true ↔ SeesPoint Q node sp.geom.p g.p)
  measurable : MeasurableSet {p | SeesPoint Q node sp.geom.p p}
  /-- a ray that meets the light meets it on the ray -/
  ahead : ∀ d h, V3.dot d d = 1 → Q.isect sp.geom.p d = some h → h.primitive = node → h.geom.infinite = false ∧ h.geom.degenerated = false ∧ ∃ s : ℝ, 0 < s ∧ h.geom.p = sp.geom.p + s • d
  /-- and except for directions of measure zero (the edges), in one triangle, with the normal of that triangle -/
  once : ∀ᵐ d ∂solidAngle, ∀ h, Q.isect sp.geom.p d = some h → h.primitive = node → ∃ (k : ℕ) (t : Tri), ts[k]? = some t ∧ Inside (triMap M t) h.geom.p ∧ h.geom.n = frontNormal M t ∧
    ∀ (k' : ℕ) (t' : Tri), ts[k']? = some t' → Inside (triMap M t') h.geom.p → k' = k

theorem sum_single {α : Type} (f : α → ℝ≥0∞) (ts : List α) (k : ℕ) (t : α) (ht : ts[k]? = some t) (h : ∀ (k' : ℕ) (t' : α), ts[k']? = some t' → k' ≠ k → f t' = 0) : (ts.map f).sum = f t := by
  induction ts generalizing k with
  | nil => simp at ht
  | cons a ts ih =>
    rw [List.map_cons, List.sum_cons]
    cases k with
    | zero =>
      simp only [List.getElem?_cons_zero, Option.some.injEq] at ht
      subst ht
      have : (ts.map f).sum = 0 := by
        refine List.sum_eq_zero fun x hx => ?_
        obtain ⟨b, hb, rfl⟩ := List.mem_map.mp hx
        obtain ⟨j, hj, rfl⟩ := List.getElem_of_mem hb
        exact h (j + 1) _ (by simp [hj]) (by omega)
      rw [this, add_zero]
    | succ k =>
      have h0 : f a = 0 := h 0 a (by simp) (by omega)
      rw [h0, zero_add]
      exact ih k (by simpa using ht) fun k' t' e hne => h (k' + 1) t' (by simpa using e) (by omega)

theorem lintegral_list_sum {α ι : Type} [MeasurableSpace α] (μ : Measure α) (f : ι → α → ℝ≥0∞) (ts : List ι) (hf : ∀ t ∈ ts, Measurable (f t)) : ∫⁻ a, (ts.map fun t => f t a).sum ∂μ = (ts.map fun t => ∫⁻ a, f t a ∂μ).sum := by
  induction ts with
  | nil => simp
  | cons t ts ih =>
    simp only [List.map_cons, List.sum_cons]
    rw [lintegral_add_left (hf t (by simp)), ih fun t' h => hf t' (by simp [h])]

theorem seen_dir {t : Tri} {x d : V3 ℝ} (hd : V3.dot d d = 1) (hs : d ∈ seen t x) : dirOf (hitPoint t x d - x) = d ∧ Inside t (hitPoint t x d) := by
  obtain ⟨hh, hD⟩ := seen_hit hs
  obtain ⟨s, hs0, e, q, hq, e'⟩ := hitPoint_spec _ _ _ hD hh
  refine ⟨?_, q, hq, e'⟩
  rw [e, add_sub_cancel_left]
  unfold dirOf
  have : V3.dot (s • d) (s • d) = s * s * V3.dot d d := by simp [V3.dot]; ring
  rw [this, hd, mul_one, Real.sqrt_mul_self hs0.le, smul_smul, one_div, inv_mul_cancel₀ hs0.ne', one_smul]

theorem inside_hit {t : Tri} {x d p : V3 ℝ} {s : ℝ} (hs : 0 < s) (e : p = x + s • d) (hi : Inside t p) (hd : V3.dot (triCross t) d ≠ 0) : d ∈ seen t x ∧ hitPoint t x d = p := by
  obtain ⟨q, hq, eq⟩ := hi
  have hh : d ∈ hitSet t x := ⟨s, hs, q, hq, by rw [← e, eq]⟩
  have hseen := hit_seen hh hd
  refine ⟨hseen, ?_⟩
  obtain ⟨_, e2⟩ := coords_at t x (seen_hit hseen).2 hs.ne' d q (by rw [← e, eq])
  unfold hitPoint
  rw [e2, div_div_cancel₀ (seen_hit hseen).2, e]

theorem edge_on {M : Aff ℝ} (hM : M.det ≠ 0) {t : Tri} {d : V3 ℝ} (h : V3.dot (triCross (triMap M t)) d = 0) : V3.dot (-d) (frontNormal M t) = 0 := by
  obtain ⟨k, hk, _⟩ := frontNormal_par M hM t
  rw [hk, V3.dot_smul_right, V3.dot_comm, V3.dot_neg_right, h]; simp

/-- A triangle that is sampled is not looked at edge-on. -/
theorem area_tilted {M : Aff ℝ} (hM : M.det ≠ 0) {t : Tri} {sgn : V3 ℝ → Bool} {junk Ke : V3 ℝ} {ts : List Tri} {g : Geom} {us : RayU} {gL : Geom} {wo C : V3 ℝ} (e : (area sgn junk Ke ts).sampleDirect us g M = .ok gL wo C) (hn : gL.n = frontNormal M t) :
    V3.dot (triCross (triMap M t)) (gL.p - g.p) ≠ 0 := by
  intro h0
  obtain ⟨es, hwo⟩ := area_direct_wo e
  have hz : V3.dot wo gL.n ≤ 0 := by
    rw [hwo, hn]
    refine (edge_on hM ?_).le
    unfold dirOf
    rw [V3.dot_smul_right, h0, mul_zero]
  simp only [area, es] at e
  cases h2 : Material.normalize (g.p - gL.p) with
  | none => rw [h2] at e; cases e
  | some w1 =>
    rw [h2] at e
    simp only at e
    have hw : wo = w1 := by
      cases h3 : areaPdfDirect ts g gL M w1 with
      | none => rw [h3] at e; simp [rayOrFail, ray] at e
      | some q =>
        rw [h3] at e
        by_cases hq : q = 0
        · rw [hq] at e; simp only [rayOrFail_zero] at e; cases e
        · simp only [rayOrFail, ray, divV, Option.some.injEq, hq, if_false] at e
          injection e with _ x
          exact x.symm
    subst hw
    simp only [areaPdfDirect, if_pos hz] at e
    rw [rayOrFail_zero] at e
    cases e

/-- One channel of what a front side with normal n emits in direction d. -/
noncomputable def front (i : Fin 3) (Ke n d : V3 ℝ) : ℝ≥0∞ := ENNReal.ofReal (chan i (if V3.dot d n ≤ 0 then V3.all 0 else Ke))

theorem front_zero {i : Fin 3} {Ke n d : V3 ℝ} (h : V3.dot d n ≤ 0) : front i Ke n d = 0 := by
  unfold front
  rw [if_pos h]
  fin_cases i <;> simp [chan, V3.all]

theorem measurable_front (i : Fin 3) (Ke n : V3 ℝ) : Measurable fun d : V3 ℝ => front i Ke n (-d) := by
  unfold front
  exact ((measurable_chan i).comp (Measurable.ite (measurableSet_le ((measurable_dotc n).comp measurable_neg3) measurable_const) measurable_const measurable_const)).ennreal_ofReal

open Classical in
/-- The part of the light that is seen, as a sum over its triangles. -/
theorem area_seen {Q : Query} {node : Int} {M : Aff ℝ} {ts : List Tri} {sp : SI} (h : AreaAt Q node M ts sp) (hM : M.det ≠ 0) (sgn : V3 ℝ → Bool) (junk Ke : V3 ℝ) (i : Fin 3) {d : V3 ℝ} (hd : V3.dot d d = 1)
    (ho : ∀ h, Q.isect sp.geom.p d = some h → h.primitive = node → ∃ (k : ℕ) (t : Tri), ts[k]? = some t ∧ Inside (triMap M t) h.geom.p ∧ h.geom.n = frontNormal M t ∧
      ∀ (k' : ℕ) (t' : Tri), ts[k']? = some t' → Inside (triMap M t') h.geom.p → k' = k) (c : ℝ≥0∞) :
    (ts.map fun t => (seen (triMap M t) sp.geom.p).indicator (fun d => front i Ke (frontNormal M t) (-d) * if SeesPoint Q node sp.geom.p (hitPoint (triMap M t) sp.geom.p d) then c else 0) d).sum =
      seenOn Q i node (area sgn junk Ke ts) sp d * c := by
  have hzero : ∀ t : Tri, ¬ (d ∈ seen (triMap M t) sp.geom.p ∧ SeesPoint Q node sp.geom.p (hitPoint (triMap M t) sp.geom.p d)) →
      (seen (triMap M t) sp.geom.p).indicator (fun d => front i Ke (frontNormal M t) (-d) * if SeesPoint Q node sp.geom.p (hitPoint (triMap M t) sp.geom.p d) then c else 0) d = 0 := fun t hn => by
    by_cases hs : d ∈ seen (triMap M t) sp.geom.p
    · rw [Set.indicator_of_mem hs, if_neg (fun hc => hn ⟨hs, hc⟩), mul_zero]
    · rw [Set.indicator_of_notMem hs]
  have hall : (∀ t ∈ ts, ¬ (d ∈ seen (triMap M t) sp.geom.p ∧ SeesPoint Q node sp.geom.p (hitPoint (triMap M t) sp.geom.p d))) →
      (ts.map fun t => (seen (triMap M t) sp.geom.p).indicator (fun d => front i Ke (frontNormal M t) (-d) * if SeesPoint Q node sp.geom.p (hitPoint (triMap M t) sp.geom.p d) then c else 0) d).sum = 0 := fun hn =>
    List.sum_eq_zero fun x hx => by
      obtain ⟨t, ht, rfl⟩ := List.mem_map.mp hx
      exact hzero t (hn t ht)
  have hsee : ∀ t : Tri, d ∈ seen (triMap M t) sp.geom.p → SeesPoint Q node sp.geom.p (hitPoint (triMap M t) sp.geom.p d) → ∃ h, Q.isect sp.geom.p d = some h ∧ h.primitive = node ∧ h.geom.p = hitPoint (triMap M t) sp.geom.p d := fun t hs ⟨h, e, h1, h2⟩ => by
    rw [(seen_dir hd hs).1] at e
    exact ⟨h, e, h1, h2⟩
  unfold seenOn
  cases hi : Q.isect sp.geom.p d with
  | none =>
    rw [hall fun t _ hc => by obtain ⟨h, e, _⟩ := hsee t hc.1 hc.2; rw [hi] at e; cases e]
    simp
  | some hit =>
    dsimp only
    by_cases hp : hit.primitive = node
    · rw [if_pos hp]
      obtain ⟨k, t, hk, hin, hn, hu⟩ := ho hit hi hp
      obtain ⟨_, _, s, hs, es⟩ := h.ahead d hit hd hi hp
      rw [sum_single _ ts k t hk fun k' t' e hne => hzero t' fun hc => ?_]
      · have he : ENNReal.ofReal (chan i ((area sgn junk Ke ts).eval hit.geom (-d) true)) = front i Ke (frontNormal M t) (-d) := by
          rw [← hn]; rfl
        rw [he]
        by_cases h0 : V3.dot (triCross (triMap M t)) d = 0
        · rw [front_zero (edge_on hM h0).le, zero_mul, Set.indicator_apply]
          split
          · rw [front_zero (edge_on hM h0).le, zero_mul]
          · rfl
        · obtain ⟨hseen, hpt⟩ := inside_hit hs es hin h0
          rw [Set.indicator_of_mem hseen, if_pos]
          refine ⟨hit, ?_, hp, hpt.symm⟩
          rw [(seen_dir hd hseen).1, hi]
      · obtain ⟨h', e', _, e3⟩ := hsee t' hc.1 hc.2
        rw [hi] at e'; cases e'
        exact hne (hu k' t' e (by rw [e3]; exact (seen_dir hd hc.1).2))
    · rw [if_neg hp, hall fun t _ hc => by obtain ⟨h, e, e2, _⟩ := hsee t hc.1 hc.2; rw [hi] at e; cases e; exact hp e2]
      simp

theorem ac_solidAngleAt (g : Geom) : solidAngleAt g ≪ solidAngle := by rw [solidAngleAt_eq]; exact withDensity_absolutelyContinuous _ _

/-- Almost every sampled point is inside a triangle, and is not the point for which it is sampled. -/
theorem area_inside (sgn : V3 ℝ → Bool) (junk : V3 ℝ) (ts : List Tri) (M : Aff ℝ) (hA : 0 < (ts.map triArea).sum) (hM : M.det ≠ 0) (a b : ℝ) (ha : 0 ≤ a ∧ a < 1) (hb : 0 ≤ b ∧ b < 1) :
    ∀ᵐ u ∂uniform3, ∃ gL t, sampleOnMesh sgn junk ts ⟨u.1, u.2.1, u.2.2, a, b⟩ M = some gL ∧ t ∈ ts ∧ Inside (triMap M t) gL.p ∧ gL.n = frontNormal M t ∧ gL.infinite = false ∧ gL.degenerated = false := by
  have h1 : ∀ᵐ q ∂uniform2, baryOf q ∈ simplex := by
    have : ∀ᵐ q ∂uniform2.map baryOf, q ∈ simplex := by
      rw [bary_uniform]
      exact Measure.ae_smul_measure (ae_restrict_mem measurableSet_simplex) _
    exact ae_of_ae_map measurable_bary.aemeasurable this
  filter_upwards [cube_ae, first2.quasiMeasurePreserving.ae h1] with u hu hq
  have hval : (⟨u.1, u.2.1, u.2.2, a, b⟩ : RayU).Valid := ⟨hu.1, hu.2.1, hu.2.2, ha, hb⟩
  obtain ⟨g, t, e, ht, hpos, hi, hd, hon, _, hp, k, hk, hn⟩ := sampleOnMesh_spec sgn junk ts ⟨u.1, u.2.1, u.2.2, a, b⟩ M hval hA hM
  refine ⟨g, t, e, ht, ⟨_, hq, by rw [hp, sampleTriangle_at]⟩, ?_, hi, hd⟩
  have hu : V3.dot g.n g.n = 1 := hon.2.2.1
  unfold frontNormal triCross
  set N := M.normalM (V3.cross (t.b - t.a) (t.c - t.a))
  have hN : k * k * V3.dot N N = 1 := by
    rw [← hu, hn]; simp [V3.dot]; ring
  have hs : Real.sqrt (V3.dot N N) = 1 / k := by
    have : V3.dot N N = (1 / k) * (1 / k) := by field_simp; linarith
    rw [this, Real.sqrt_mul_self (by positivity)]
  rw [hn]
  unfold dirOf
  rw [hs, one_div_one_div]

/-- A sampled point coincides with a given one with probability 0. -/
theorem area_apart (sgn : V3 ℝ → Bool) (junk Ke : V3 ℝ) (ts : List Tri) (M : Aff ℝ) (hA : 0 < (ts.map triArea).sum) (hM : M.det ≠ 0) (hS : ScalesArea M ts) (x : V3 ℝ) (a b : ℝ) :
    ∀ᵐ u ∂uniform3, ∀ gL, sampleOnMesh sgn junk ts ⟨u.1, u.2.1, u.2.2, a, b⟩ M = some gL → gL.p ≠ x := by
  obtain ⟨pA, hp, hpp, hpe⟩ := transformedInvA_pos ts M hA hM
  have hpos := (C80_area_position_partial sgn junk Ke ts M hA hM hS a b (fun _ => makeDegenerated x x)).2 {x} (measurable_point x)
  have hz : ∫⁻ y in {x}, dens ((area sgn junk Ke ts).pdfPosition (makeDegenerated x x) M) ∂meshMeasure (ts.map (triMap M)) = 0 := by
    rw [setLIntegral_measure_zero]
    unfold meshMeasure
    rw [map_sum_apply]
    exact List.sum_eq_zero fun y hy => by obtain ⟨t, _, rfl⟩ := List.mem_map.mp hy; exact triMeasure_point t x
  rw [ae_iff]
  refine measure_mono_null ?_ (hpos.2.trans hz)
  intro u hu
  simp only [Set.mem_ofPred_eq, not_forall, not_not] at hu
  obtain ⟨gL, e, h⟩ := hu
  obtain ⟨C, e2, _⟩ := ray_ok gL 0 (V3.all 1) pA hpp
  refine ⟨gL.p, ?_, h⟩
  show resPoint ((area sgn junk Ke ts).samplePosition _ M) = _
  simp only [area, e, hp, e2, resPoint]

/-- Directions of measure zero are sampled with probability 0. -/
theorem area_direction (sgn : V3 ℝ → Bool) (junk Ke : V3 ℝ) (ts : List Tri) (M : Aff ℝ) (hA : 0 < (ts.map triArea).sum) (hM : M.det ≠ 0) (hS : ScalesArea M ts) (g : Geom) (hf : g.infinite = false) (a b : ℝ) (P : V3 ℝ → Prop)
    (hP : ∀ᵐ d ∂solidAngle, P d) : ∀ᵐ u ∂uniform3, ∀ gL wo C, (area sgn junk Ke ts).sampleDirect ⟨u.1, u.2.1, u.2.2, a, b⟩ g M = .ok gL wo C → P (-wo) := by
  set N := toMeasurable solidAngle {d | ¬ P d} with hN
  have hN0 : solidAngle N = 0 := by rw [hN, measure_toMeasurable]; exact ae_iff.mp hP
  have hNm : MeasurableSet N := measurableSet_toMeasurable _ _
  have hNd : ∀ᵐ d ∂solidAngleAt g, d ∉ N := by
    have : ∀ᵐ d ∂solidAngle, d ∉ N := by rw [ae_iff]; simpa using hN0
    exact (ac_solidAngleAt g).ae_le this
  have hlaw := (area_direct_law sgn junk Ke ts M hA hM hS g hf a b (fun _ => {x | dirOf (x - g.p) ∈ N}) fun _ => hNm.preimage (measurable_dirOf.comp (measurable_sub3 g.p))).2
  have hz : (ts.map fun t => ∫⁻ d, {d | d ∈ hitSet (triMap M t) g.p ∧ hitPoint (triMap M t) g.p d ∈ {x | dirOf (x - g.p) ∈ N}}.indicator
        (fun d => dens ((area sgn junk Ke ts).pdfDirect g (makeOnSurface (hitPoint (triMap M t) g.p d) (frontNormal M t) (frontNormal M t) (sgn (frontNormal M t)) junk) M (-d) false)) d ∂solidAngleAt g).sum = 0 := by
    refine List.sum_eq_zero fun y hy => ?_
    classical
    obtain ⟨t, _, rfl⟩ := List.mem_map.mp hy
    refine (lintegral_congr_ae ?_).trans lintegral_zero
    filter_upwards [solidAngleAt_unit g, hNd] with d hd hn
    rw [Set.indicator_apply]
    split
    · rename_i hm
      have h0 : V3.dot (triCross (triMap M t)) d = 0 := by
        by_contra hne
        have hs := hit_seen hm.1 hne
        have := hm.2
        simp only [Set.mem_ofPred_eq, (seen_dir hd hs).1] at this
        exact hn this
      show dens (areaPdfDirect ts g _ M (-d)) = 0
      unfold areaPdfDirect
      rw [if_pos (by show V3.dot (-d) (frontNormal M t) ≤ 0; rw [edge_on hM h0])]
      simp [dens]
    · rfl
  rw [ae_iff]
  refine measure_mono_null ?_ (hlaw.trans hz)
  intro u hu
  simp only [Set.mem_ofPred_eq, not_forall] at hu
  obtain ⟨gL, wo, C, e, hn⟩ := hu
  refine ⟨gL, wo, C, e, ?_⟩
  have hwo := (area_direct_wo e).2
  show dirOf (gL.p - g.p) ∈ N
  rw [hwo, neg_neg] at hn
  exact subset_toMeasurable _ _ hn

open Classical in
/-- Area lights meet the requirements on lights, where intersections are as required. -/
theorem area_ok (Q : Query) (i : Fin 3) (node : Int) (M : Aff ℝ) (sgn : V3 ℝ → Bool) (junk Ke : V3 ℝ) (ts : List Tri) (hA : 0 < (ts.map triArea).sum) (hM : M.det ≠ 0) (hS : ScalesArea M ts) (hKe : NonNeg Ke) (sp : SI)
    (h : AreaAt Q node M ts sp) : LightOk Q i node M (area sgn junk Ke ts) sp := by
  obtain ⟨pA, hp, hpp, _⟩ := transformedInvA_pos ts M hA hM
  have hz : (0 : ℝ) ≤ 0 ∧ (0 : ℝ) < 1 := ⟨le_rfl, one_pos⟩
  have hind : ∀ (p : ℝ × ℝ × ℝ) (q : ℝ × ℝ), (area sgn junk Ke ts).sampleDirect ⟨p.1, p.2.1, p.2.2, q.1, q.2⟩ sp.geom M = (area sgn junk Ke ts).sampleDirect ⟨p.1, p.2.1, p.2.2, 0, 0⟩ sp.geom M := fun _ _ => rfl
  have hin := area_inside sgn junk ts M hA hM 0 0 hz hz
  refine ⟨rfl, fun F hF => ?_, ?_, fun d h' hd hi hpr => ?_⟩
  · simp_rw [hind]
    simp_rw [int2_const]
    have hFm : Measurable fun q : V3 ℝ × V3 ℝ × V3 ℝ => (fun p _ wo => if p ∈ {p | SeesPoint Q node sp.geom.p p} then F (-wo) else 0 : V3 ℝ → V3 ℝ → V3 ℝ → ℝ≥0∞) q.1 q.2.1 q.2.2 :=
      Measurable.ite (h.measurable.preimage measurable_fst) (hF.comp (measurable_neg3.comp measurable_snd.snd)) measurable_const
    have e1 := C81_area_direct_partial sgn junk Ke ts M hA hM hS sp.geom h.finite 0 0 hz hz i (fun p _ wo => if p ∈ {p | SeesPoint Q node sp.geom.p p} then F (-wo) else 0) hFm
    refine Eq.trans (lintegral_congr_ae (hin.mono fun u hu => ?_)) (e1.trans ?_)
    · beta_reduce
      obtain ⟨gL, t, e, ht, hins, hn, hfin, _⟩ := hu
      cases es : (area sgn junk Ke ts).sampleDirect ⟨u.1, u.2.1, u.2.2, 0, 0⟩ sp.geom M with
      | ok g wo C =>
        obtain ⟨e', _⟩ := area_direct_wo es
        rw [e] at e'; cases e'
        have hv := h.visible gL hfin t ht hins (area_tilted hM es hn)
        simp only [worthRay]
        congr 1
        by_cases hc : SeesPoint Q node sp.geom.p gL.p
        · rw [if_pos (hv.mpr hc), if_pos (show gL.p ∈ {p | SeesPoint Q node sp.geom.p p} from hc)]
        · rw [if_neg (fun hh => hc (hv.mp hh)), if_neg (show ¬ gL.p ∈ {p | SeesPoint Q node sp.geom.p p} from hc)]
      | fail => rfl
      | undef => rfl
      | unsupported => rfl
    · have hm : ∀ t ∈ ts, Measurable fun d => (seen (triMap M t) sp.geom.p).indicator (fun d => front i Ke (frontNormal M t) (-d) * if SeesPoint Q node sp.geom.p (hitPoint (triMap M t) sp.geom.p d) then F d else 0) d := fun t _ =>
        Measurable.indicator ((measurable_front i Ke _).mul (Measurable.ite (h.measurable.preimage (measurable_hitPoint _ _)) hF measurable_const)) (measurable_seen _ _)
      have e2 := lintegral_list_sum (solidAngleAt sp.geom) (fun t d => (seen (triMap M t) sp.geom.p).indicator (fun d => front i Ke (frontNormal M t) (-d) * if SeesPoint Q node sp.geom.p (hitPoint (triMap M t) sp.geom.p d) then F d else 0) d) ts hm
      have e3 : ∫⁻ d, seenOn Q i node (area sgn junk Ke ts) sp d * F d ∂solidAngleAt sp.geom = ∫⁻ d, (ts.map fun t => (seen (triMap M t) sp.geom.p).indicator (fun d => front i Ke (frontNormal M t) (-d) * if SeesPoint Q node sp.geom.p (hitPoint (triMap M t) sp.geom.p d) then F d else 0) d).sum ∂solidAngleAt sp.geom := by
        refine lintegral_congr_ae ?_
        filter_upwards [solidAngleAt_unit sp.geom, (ac_solidAngleAt sp.geom).ae_le h.once] with d hd ho
        rw [← area_seen h hM sgn junk Ke i hd ho (F d)]
        congr 1
      rw [e3, e2]
      congr 1
      refine List.map_congr_left fun t _ => ?_
      refine lintegral_congr_ae ((solidAngleAt_unit sp.geom).mono fun d hd => ?_)
      by_cases hs : d ∈ seen (triMap M t) sp.geom.p
      · rw [Set.indicator_of_mem hs, Set.indicator_of_mem (seen_hit hs).1]
        simp only [neg_neg, Set.mem_ofPred_eq]
        rfl
      · rw [Set.indicator_of_notMem hs]
        by_cases hh : d ∈ hitSet (triMap M t) sp.geom.p
        · rw [Set.indicator_of_mem hh]
          have h0 : V3.dot (triCross (triMap M t)) d = 0 := by
            by_contra hne; exact hs (hit_seen hh hne)
          have : Solid.value i (some ((area sgn junk Ke ts).eval (makeOnSurface (hitPoint (triMap M t) sp.geom.p d) (frontNormal M t) (frontNormal M t) (sgn (frontNormal M t)) junk) (-d) false)) = front i Ke (frontNormal M t) (-d) := rfl
          rw [this, front_zero (edge_on hM h0).le, zero_mul]
        · rw [Set.indicator_of_notMem hh]
  · filter_upwards [cube_ae, hin, area_apart sgn junk Ke ts M hA hM hS sp.geom.p 0 0, area_direction sgn junk Ke ts M hA hM hS sp.geom h.finite 0 0 _ h.once] with u hu hi hne honce
    refine Filter.Eventually.of_forall fun q => ?_
    rw [hind]
    have hval : (⟨u.1, u.2.1, u.2.2, 0, 0⟩ : RayU).Valid := ⟨hu.1, hu.2.1, hu.2.2, hz, hz⟩
    obtain ⟨gL, hs, hrest⟩ := C46_area_direct sgn junk Ke ts M hA hM ⟨u.1, u.2.1, u.2.2, 0, 0⟩ hval sp.geom h.finite
    obtain ⟨w1, hno, hest, hfail, hok⟩ := hrest (hne gL hs)
    have hcase : (area sgn junk Ke ts).sampleDirect ⟨u.1, u.2.1, u.2.2, 0, 0⟩ sp.geom M = .fail ∨ ∃ C, (area sgn junk Ke ts).sampleDirect ⟨u.1, u.2.1, u.2.2, 0, 0⟩ sp.geom M = .ok gL w1 C := by
      by_cases hc : V3.dot w1 gL.n ≤ 0 ∨ geometryTerm sp.geom gL = some 0
      · exact .inl (hfail.mpr hc)
      · exact .inr (hok hc)
    refine ⟨fun e => ?_, fun e => ?_, fun g wo C e hv => ?_⟩
    · rcases hcase with h | ⟨C, h⟩ <;> rw [h] at e <;> cases e
    · rcases hcase with h | ⟨C, h⟩ <;> rw [h] at e <;> cases e
    · obtain ⟨g', t, e', ht, hins, hn, hfin, hdeg⟩ := hi
      obtain ⟨es, hwo⟩ := area_direct_wo e
      rw [e'] at es; cases es
      obtain ⟨_, P, hP, h0, hPC⟩ := hest g wo C e
      obtain ⟨h', hi', hp', he'⟩ := (h.visible g hfin t ht hins (area_tilted hM e hn)).mp hv
      have hpos : 0 < V3.dot (g.p - sp.geom.p) (g.p - sp.geom.p) := by
        rcases (dot_self_nonneg (g.p - sp.geom.p)).eq_or_lt with h | h
        · exact absurd (sub_eq_zero.mp (dot_self_zero h.symm)) (hne g e')
        · exact h
      have hun : V3.dot wo wo = 1 := by
        rw [hwo]
        have : V3.dot (-dirOf (g.p - sp.geom.p)) (-dirOf (g.p - sp.geom.p)) = V3.dot (dirOf (g.p - sp.geom.p)) (dirOf (g.p - sp.geom.p)) := by simp [V3.dot]
        rw [this]
        exact (dirOf_spec hpos).1
      have hi2 : Q.isect sp.geom.p (-wo) = some h' := by rw [hwo, neg_neg]; exact hi'
      obtain ⟨hf2, hd2, _⟩ := h.ahead (-wo) h' (by simpa [V3.dot] using hun) hi2 hp'
      refine ⟨hun, ?_, hdeg, h', hi2, hp', ?_⟩
      · have : C = (1 / P) • areaEval Ke g wo := by
          have : P • C = areaEval Ke g wo := hPC
          rw [← this, smul_smul, one_div_mul_cancel h0.ne', one_smul]
        rw [this]
        refine nonneg_smul (by positivity) ?_
        unfold areaEval
        split
        · exact ⟨le_rfl, le_rfl, le_rfl⟩
        · exact hKe
      · obtain ⟨k, t2, hk, _, hn2, huniq⟩ := honce g wo C e h' hi2 hp'
        obtain ⟨j, hj, rfl⟩ := List.getElem_of_mem ht
        have hjk := huniq j _ (List.getElem?_eq_getElem hj) (by rw [he']; exact hins)
        subst hjk
        rw [List.getElem?_eq_getElem hj] at hk
        cases hk
        show areaPdfDirect ts sp.geom g M wo = areaPdfDirect ts sp.geom h'.geom M wo
        rw [areaPdf_congr ts sp.geom g M wo junk false h.finite hfin hdeg, areaPdf_congr ts sp.geom h'.geom M wo junk false h.finite hf2 hd2, he', hn, hn2]
  · obtain ⟨hf', hd', s, hs, es⟩ := h.ahead d h' hd hi hpr
    have hdir : dirOf (h'.geom.p - sp.geom.p) = d := by
      rw [es, add_sub_cancel_left]
      unfold dirOf
      have : V3.dot (s • d) (s • d) = s * s * V3.dot d d := by simp [V3.dot]; ring
      rw [this, hd, mul_one, Real.sqrt_mul_self hs.le, smul_smul, one_div, inv_mul_cancel₀ hs.ne', one_smul]
    refine ⟨atPoint pA sp.geom (h'.geom.p, h'.geom.n), ?_, ?_⟩
    · show areaPdfDirect ts sp.geom h'.geom M (-d) = _
      rw [areaPdf_congr ts sp.geom h'.geom M (-d) junk false h.finite hf' hd']
      have := atPoint_eq hp h.finite junk false (h'.geom.p, h'.geom.n)
      rwa [hdir] at this
    · unfold atPoint
      split
      · exact div_nonneg (mul_nonneg hpp.le (dot_self_nonneg _)) (mul_nonneg (cosOf_nonneg _ _) (abs_nonneg _))
      · exact le_rfl

end LM.Transport
