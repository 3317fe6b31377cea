import Verif.Props.C80_Light
/-
  C80: area lights sample points, and points towards a shading point, with the density they report.
-/
namespace LM.Solid
open MeasureTheory LM Set LM.MathF LM.Surface LM.Material LM.Light
open scoped ENNReal Real

theorem twiceArea_eq (t : Tri) : triArea t = twiceArea t * (1 / 2) := by
  unfold triArea twiceArea triCross
  simp only [safeSqrt]
  rw [max_eq_right (dot_self_nonneg _)]

theorem measurable_triAt (t : Tri) : Measurable (triAt t) := by
  unfold triAt
  refine measurable_mk (f := fun q : ℝ × ℝ => t.a + q.1 • (t.b - t.a) + q.2 • (t.c - t.a)) ?_ ?_ ?_
  all_goals
    simp only [V3.add_x, V3.add_y, V3.add_z, V3.smul_x, V3.smul_y, V3.smul_z]
    exact ((measurable_fst.mul_const _).const_add _).add (measurable_snd.mul_const _)

/-- The uniform point on a triangle. -/
theorem sampleTriangle_at (t : Tri) (M : Aff ℝ) (u0 u1 : ℝ) : M.app (sampleTriangle t.a t.b t.c u0 u1) = triAt (triMap M t) (baryOf (u0, u1)) := by
  unfold sampleTriangle mixBarycentric
  simp only
  rw [C74_affine]
  unfold triAt triMap baryOf
  ext <;> simp <;> ring

theorem frontNormal_eq (M : Aff ℝ) (hM : M.det ≠ 0) (t : Tri) (ht : 0 < triArea t) : ∃ gn, geometryNormal t = some gn ∧ normalize (M.normalM gn) = some (frontNormal M t) := by
  have hcr : triCross t ≠ 0 := by
    intro e
    rw [twiceArea_eq] at ht
    simp [twiceArea, e, V3.dot] at ht
  obtain ⟨gn, hgn⟩ := normalize_of_ne hcr
  obtain ⟨hgu, k, hk, hke⟩ := normalize_unit hgn
  obtain ⟨m, hm⟩ := normalize_of_ne (normalM_ne M hM gn hgu)
  refine ⟨gn, hgn, ?_⟩
  rw [hm]
  obtain ⟨hmu, k', hk', hke'⟩ := normalize_unit hm
  unfold frontNormal
  have e3 : M.normalM (triCross t) = (k * k') • m := by
    rw [hke]
    have : M.normalM (k • gn) = k • M.normalM gn := by unfold Aff.normalM; ext <;> simp <;> ring
    rw [this, hke', smul_smul]
  have hpos : 0 < k * k' := by positivity
  have e4 : V3.dot ((k * k') • m) ((k * k') • m) = (k * k') * (k * k') := by
    have : V3.dot ((k * k') • m) ((k * k') • m) = (k * k') * (k * k') * V3.dot m m := by simp [V3.dot]; ring
    rw [this, hmu, mul_one]
  rw [e3]
  unfold dirOf
  rw [e4, Real.sqrt_mul_self hpos.le, smul_smul, one_div, inv_mul_cancel₀ hpos.ne', one_smul]

/-- The mesh sampler picks triangle i and then the point. -/
theorem sampleOnMesh_eq (sgn : V3 ℝ → Bool) (junk : V3 ℝ) (ts : List Tri) (M : Aff ℝ) (hM : M.det ≠ 0) (d : Dist.Dist ℝ) (hd : areaDist ts = some d) (us : RayU) (i : Nat) (hi : Dist.sample d us.upc = some i) (t : Tri)
    (ht : ts[i]? = some t) (hpos : 0 < triArea t) :
    sampleOnMesh sgn junk ts us M = some (makeOnSurface (triAt (triMap M t) (baryOf (us.up0, us.up1))) (frontNormal M t) (frontNormal M t) (sgn (frontNormal M t)) junk) := by
  obtain ⟨gn, h1, h2⟩ := frontNormal_eq M hM t hpos
  simp only [sampleOnMesh, hd, Option.bind_eq_bind, Option.bind_some, hi, ht, h1, divF, hM, if_false, h2, sampleTriangle_at]
  rfl

/-- An event of the mesh sampler, given for each triangle by the barycentric coordinates. -/
theorem mesh_law (ts : List Tri) (hA : 0 < (ts.map triArea).sum) (T : Set (ℝ × ℝ × ℝ)) (B : Tri → Set (ℝ × ℝ)) (hB : ∀ t ∈ ts, MeasurableSet (B t))
    (hT : ∀ d, areaDist ts = some d → ∀ u ∈ cube, ∀ (i : Nat) t, Dist.sample d u.2.2 = some i → ts[i]? = some t → 0 < triArea t → (u ∈ T ↔ baryOf (u.1, u.2.1) ∈ B t)) :
    NullMeasurableSet T uniform3 ∧ uniform3 T = (ts.map fun t => ENNReal.ofReal (twiceArea t / (ts.map triArea).sum) * volume (B t ∩ simplex)).sum := by
  have hnn : ∀ w ∈ ts.map triArea, 0 ≤ w := by simpa using fun t _ => triArea_nonneg t
  obtain ⟨d, hd, hpm, I, hI, hdis, hsel, hex⟩ := sample_interval (ts.map triArea) hnn hA
  obtain ⟨d', hd', hp, _⟩ := Dist.C28_pmf (ts.map triArea) hA.ne'
  rw [distOf_eq, hd'] at hd; cases hd
  have hdd : areaDist ts = some d := by unfold areaDist; rw [distOf_eq, hd']
  simp only [List.length_map] at hI hdis hsel hex
  have hpi : ∀ i (hi : i < ts.length), Dist.pmf d i = triArea ts[i] / (ts.map triArea).sum := by
    intro i hi
    rw [hp i (by simpa using hi)]
    simp
  have hb : ∀ B : Set (ℝ × ℝ), MeasurableSet B → uniform2 (baryOf ⁻¹' B) = 2 * volume (B ∩ simplex) := by
    intro B hB
    have e := congrArg (fun μ : Measure (ℝ × ℝ) => μ B) bary_uniform
    beta_reduce at e
    rw [Measure.map_apply measurable_bary hB, Measure.smul_apply, Measure.restrict_apply hB, smul_eq_mul] at e
    exact e
  set E : Nat → Set (ℝ × ℝ) := fun i => match ts[i]? with | some t => if 0 < triArea t then baryOf ⁻¹' B t else ∅ | none => ∅ with hE
  have hEi : ∀ i (hi : i < ts.length), E i = if 0 < triArea ts[i] then baryOf ⁻¹' B ts[i] else ∅ := by
    intro i hi
    simp only [hE, List.getElem?_eq_getElem hi]
  obtain ⟨h1, h2⟩ := select_law ts.length I E T (fun i hi => (hI i hi).1) hdis (fun i hi => by
      rw [hEi i hi]
      split
      · exact (measurable_bary (hB _ (List.getElem_mem hi))).nullMeasurableSet
      · exact MeasurableSet.empty.nullMeasurableSet) (fun u hu => by
      obtain ⟨i, hi, hs⟩ := hex u.2.2 hu.2.2.1 hu.2.2.2
      have hI1 : u.2.2 ∈ I i := (hsel u.2.2 hu.2.2.1 hu.2.2.2 i hi).mp hs
      have hpos : 0 < triArea ts[i] := by
        obtain ⟨c, hc1, _, hc3⟩ := Dist.C28_sample (ts.map triArea) hnn hA
        rw [hd'] at hc1; cases hc1
        obtain ⟨⟨j, hj, e1, e2⟩, _⟩ := hc3 u.2.2 hu.2.2.1 hu.2.2.2
        rw [e1] at hs; cases hs
        rw [hpi _ hi] at e2
        by_contra hc
        have h0 : triArea ts[i] = 0 := le_antisymm (not_lt.mp hc) (triArea_nonneg _)
        simp [h0] at e2
      have key := hT d hdd u hu i ts[i] hs (List.getElem?_eq_getElem hi) hpos
      rw [key]
      constructor
      · intro h
        exact ⟨i, hi, hI1, by rw [hEi i hi, if_pos hpos]; exact h⟩
      · rintro ⟨j, hj, hj1, hj2⟩
        have : j = i := by
          by_contra hne
          exact Set.disjoint_left.mp (hdis j hj i hi hne) hj1 hI1
        subst this
        rw [hEi j hj, if_pos hpos] at hj2
        exact hj2)
  refine ⟨h1, ?_⟩
  rw [h2, Finset.sum_range, ← Fin.sum_univ_fun_getElem]
  refine Finset.sum_congr rfl fun i _ => ?_
  rw [(hI i i.2).2, hpi i i.2, hEi i i.2]
  show _ = ENNReal.ofReal (twiceArea ts[i] / _) * _
  split_ifs with hpos
  · rw [hb _ (hB _ (List.getElem_mem i.2)), ← mul_assoc]
    congr 1
    rw [show (2 : ℝ≥0∞) = ENNReal.ofReal 2 by norm_num, ← ENNReal.ofReal_mul (by have := triArea_nonneg ts[i]; positivity)]
    congr 1
    have := twiceArea_eq ts[i]
    simp only [Fin.getElem_fin] at this ⊢
    rw [this]; ring
  · have h0 : triArea ts[i] = 0 := le_antisymm (not_lt.mp hpos) (triArea_nonneg _)
    have h0' : twiceArea ts[i] = 0 := by have := twiceArea_eq ts[i]; rw [h0] at this; linarith
    rw [show ts[(i : Nat)] = ts[i] from rfl, h0, h0']
    simp

theorem meshMeasure_apply (ts : List Tri) (A : Set (V3 ℝ)) (hA : MeasurableSet A) : meshMeasure ts A = (ts.map fun t => ENNReal.ofReal (twiceArea t) * volume (triAt t ⁻¹' A ∩ simplex)).sum := by
  unfold meshMeasure
  induction ts with
  | nil => simp
  | cons t ts ih =>
    simp only [List.map_cons, List.sum_cons]
    rw [Measure.add_apply, ih]
    congr 1
    unfold triMeasure
    rw [Measure.smul_apply, Measure.map_apply (measurable_triAt t) hA, Measure.restrict_apply (measurable_triAt t hA), smul_eq_mul]

theorem position_event (sgn : V3 ℝ → Bool) (junk Ke : V3 ℝ) (ts : List Tri) (M : Aff ℝ) (hA : 0 < (ts.map triArea).sum) (hM : M.det ≠ 0) (a b : ℝ) (A : Set (V3 ℝ)) (hAm : MeasurableSet A) :
    NullMeasurableSet {u : ℝ × ℝ × ℝ | ∃ p, resPoint ((area sgn junk Ke ts).samplePosition ⟨u.1, u.2.1, u.2.2, a, b⟩ M) = some p ∧ p ∈ A} uniform3 ∧
    uniform3 {u : ℝ × ℝ × ℝ | ∃ p, resPoint ((area sgn junk Ke ts).samplePosition ⟨u.1, u.2.1, u.2.2, a, b⟩ M) = some p ∧ p ∈ A} =
      (ts.map fun t => ENNReal.ofReal (twiceArea t / (ts.map triArea).sum) * volume (triAt (triMap M t) ⁻¹' A ∩ simplex)).sum := by
  refine mesh_law ts hA _ (fun t => triAt (triMap M t) ⁻¹' A) (fun t _ => measurable_triAt _ hAm) fun d hd u hu i t hi ht hpos => ?_
  obtain ⟨pA, hp, hpp, _⟩ := transformedInvA_pos ts M hA hM
  have e := sampleOnMesh_eq sgn junk ts M hM d hd ⟨u.1, u.2.1, u.2.2, a, b⟩ i hi t ht hpos
  obtain ⟨C, e2, _⟩ := ray_ok (makeOnSurface (triAt (triMap M t) (baryOf (u.1, u.2.1))) (frontNormal M t) (frontNormal M t) (sgn (frontNormal M t)) junk) 0 (V3.all 1) pA hpp
  have e3 : (area sgn junk Ke ts).samplePosition ⟨u.1, u.2.1, u.2.2, a, b⟩ M = .ok (makeOnSurface (triAt (triMap M t) (baryOf (u.1, u.2.1))) (frontNormal M t) (frontNormal M t) (sgn (frontNormal M t)) junk) 0 C := by
    simp only [area, e, hp]; exact e2
  simp only [mem_ofPred_eq, mem_preimage, e3, resPoint]
  constructor
  · rintro ⟨p, h1, h2⟩
    cases h1
    exact h2
  · intro h; exact ⟨_, rfl, h⟩

theorem scales_term {ts : List Tri} {M : Aff ℝ} (hA : 0 < (ts.map triArea).sum) (hM : M.det ≠ 0) (hS : ScalesArea M ts) {p : ℝ} (hp : p = 1 / ((ts.map triArea).sum * |M.det|)) (t : Tri) (ht : t ∈ ts) :
    p * twiceArea (triMap M t) = twiceArea t / (ts.map triArea).sum := by
  have := abs_pos.mpr hM
  rw [hS t ht, hp]
  field_simp

/-- C80 (partial). Area lights sample points of the mesh with the density they report, with respect to surface area in the scene.
    Missing: transforms that do not scale areas by their determinant, for which the claim is false (next theorem). -/
theorem C80_area_position_partial (sgn : V3 ℝ → Bool) (junk Ke : V3 ℝ) (ts : List Tri) (M : Aff ℝ) (hA : 0 < (ts.map triArea).sum) (hM : M.det ≠ 0) (hS : ScalesArea M ts) (a b : ℝ) (geomAt : V3 ℝ → Geom) :
    let L := area sgn junk Ke ts
    HasDensityO uniform3 (fun u => resPoint (L.samplePosition ⟨u.1, u.2.1, u.2.2, a, b⟩ M)) (meshMeasure (ts.map (triMap M))) (fun p => L.pdfPosition (geomAt p) M) := by
  intro L
  obtain ⟨pA, hp, hpp, hpe⟩ := transformedInvA_pos ts M hA hM
  have hpd : ∀ p, L.pdfPosition (geomAt p) M = some pA := fun _ => hp
  refine ⟨by simp only [hpd]; exact aemeasurable_const, fun A hAm => ?_⟩
  obtain ⟨h1, h2⟩ := position_event sgn junk Ke ts M hA hM a b A hAm
  refine ⟨h1, ?_⟩
  simp only [hpd]
  rw [lintegral_const, Measure.restrict_apply_univ, meshMeasure_apply _ _ hAm, List.map_map]
  refine h2.trans ?_
  show _ = ENNReal.ofReal pA * _
  rw [← List.sum_map_mul_left]
  congr 1
  refine List.map_congr_left fun t ht => ?_
  simp only [Function.comp]
  rw [← mul_assoc, ← ENNReal.ofReal_mul hpp.le, scales_term hA hM hS hpe t ht]

theorem uniform3_univ : uniform3 univ = 1 := by
  unfold uniform3
  rw [Measure.restrict_apply_univ, show (volume : Measure (ℝ × ℝ × ℝ)) = (volume : Measure ℝ).prod ((volume : Measure ℝ).prod volume) from rfl, Measure.prod_prod, Measure.prod_prod]
  simp

/-- C80 (negation). Under uniform scaling by s ≠ 1 the points are not distributed with the reported density. -/
theorem C80_negation_area_scaled (sgn : V3 ℝ → Bool) (junk Ke : V3 ℝ) (ts : List Tri) (hA : 0 < (ts.map triArea).sum) (s : ℝ) (hs : 0 < s) (hs1 : s ≠ 1) (a b : ℝ) (geomAt : V3 ℝ → Geom) :
    let L := area sgn junk Ke ts
    ¬ HasDensityO uniform3 (fun u => resPoint (L.samplePosition ⟨u.1, u.2.1, u.2.2, a, b⟩ (scaleBy s))) (meshMeasure (ts.map (triMap (scaleBy s)))) (fun p => L.pdfPosition (geomAt p) (scaleBy s)) := by
  intro L h
  have hdet : (scaleBy s).det = s ^ 3 := by simp [Aff.det, scaleBy, V3.dot, V3.cross]; ring
  have hM : (scaleBy s).det ≠ 0 := by rw [hdet]; positivity
  obtain ⟨pA, hp, hpp, hpe⟩ := transformedInvA_pos ts (scaleBy s) hA hM
  have hpd : ∀ p, L.pdfPosition (geomAt p) (scaleBy s) = some pA := fun _ => hp
  have h2 := (position_event sgn junk Ke ts (scaleBy s) hA hM a b univ MeasurableSet.univ).2
  have h3 := (h.2 univ MeasurableSet.univ).2
  simp only [hpd] at h3
  rw [lintegral_const, Measure.restrict_apply_univ, meshMeasure_apply _ _ MeasurableSet.univ, List.map_map] at h3
  have hone := (mesh_law ts hA univ (fun _ => univ) (fun _ _ => MeasurableSet.univ) (fun _ _ _ _ _ _ _ _ _ => by simp)).2
  rw [uniform3_univ] at hone
  simp only [univ_inter, preimage_univ] at hone h2 h3
  rw [← hone] at h2
  have h4 := h2.symm.trans h3
  have hterm : ∀ t, twiceArea (triMap (scaleBy s) t) = s ^ 2 * twiceArea t := by
    intro t
    have e : V3.dot (triCross (triMap (scaleBy s) t)) (triCross (triMap (scaleBy s) t)) = (s ^ 2) ^ 2 * V3.dot (triCross t) (triCross t) := by
      simp [triCross, triMap, Aff.app, Aff.lin, scaleBy, V3.dot, V3.cross]; ring
    unfold twiceArea
    rw [e, Real.sqrt_mul (by positivity), Real.sqrt_sq (by positivity)]
  have h5 : (1 : ℝ≥0∞) = ENNReal.ofReal (1 / s) * 1 := by
    conv_rhs => rw [hone]
    rw [h4, ← List.sum_map_mul_left, ← List.sum_map_mul_left]
    congr 1
    refine List.map_congr_left fun t ht => ?_
    simp only [Function.comp]
    show ENNReal.ofReal pA * _ = _
    rw [← mul_assoc, ← mul_assoc, ← ENNReal.ofReal_mul hpp.le, ← ENNReal.ofReal_mul (by positivity), hterm, hpe, hdet, abs_of_pos (by positivity)]
    congr 2
    field_simp
  rw [mul_one, ← ENNReal.ofReal_one] at h5
  have := (ENNReal.ofReal_eq_ofReal_iff zero_le_one (by positivity)).mp h5
  rw [eq_div_iff hs.ne', one_mul] at this
  exact hs1 this

end LM.Solid
