import Verif.Props.C86_Surface
import Verif.Props.C82_Lights
/-
  C86: the rays that leave area lights, averaged over their random numbers.
-/
namespace LM.Transport
open MeasureTheory LM LM.Surface LM.Material LM.Light LM.MathF LM.Path LM.Render LM.Solid Set
open scoped ENNReal

theorem measurable_front' (i : Fin 3) (Ke : V3 ℝ) {α : Type} [MeasurableSpace α] {n d : α → V3 ℝ} (hn : Measurable n) (hd : Measurable d) : Measurable fun a => front i Ke (n a) (d a) := by
  unfold front
  exact ((measurable_chan i).comp (Measurable.ite (measurableSet_le (measurable_dot3 hd hn) measurable_const) measurable_const measurable_const)).ennreal_ofReal

/-- The directions in which an area light emits, at a point of it: cosine-weighted, so that the weight is constant. -/
theorem emission_direction (sgn : V3 ℝ → Bool) (i : Fin 3) (Ke : V3 ℝ) (g : Geom) (hn : V3.dot g.n g.n = 1) (pA : ℝ) (hp : 0 < pA) (a b c : ℝ) {F : V3 ℝ → ℝ≥0∞} (hF : Measurable F) :
    ∫⁻ q : ℝ × ℝ, worthRay i (fun _ wo => F wo) (ray g (cosineAround sgn g ⟨a, b, c, q.1, q.2⟩) (areaEval Ke g (cosineAround sgn g ⟨a, b, c, q.1, q.2⟩)) (some (pA * pdfCosine))) ∂uniform2 =
      ENNReal.ofReal (1 / pA) * ∫⁻ d, ENNReal.ofReal |V3.dot g.n d| * (front i Ke g.n d * F d) ∂solidAngle := by
  have hFr := frame_of (C32_basis g.n (sgn g.n) hn)
  have hpp : 0 < pA * pdfCosine := mul_pos hp pdfCosine_pos
  have hfr : Measurable fun d => front i Ke g.n d := measurable_front' i Ke measurable_const measurable_id
  have e1 : ∀ d, worthRay i (fun _ wo => F wo) (ray g d (areaEval Ke g d) (some (pA * pdfCosine))) = ENNReal.ofReal (1 / (pA * pdfCosine)) * (front i Ke g.n d * F d) := fun d => by
    simp only [ray, divV, hpp.ne', if_false, worthRay, chan_smul]
    rw [ENNReal.ofReal_mul (by positivity), mul_assoc]
    rfl
  have e2 := law_cosine hFr (f := fun d => ENNReal.ofReal (1 / (pA * pdfCosine)) * (front i Ke g.n d * F d)) ((hfr.mul hF).const_mul _)
  have e3 : ∀ q : ℝ × ℝ, cosineAround sgn g ⟨a, b, c, q.1, q.2⟩ = lin (orthonormalBasis g.n (sgn g.n)).1 (orthonormalBasis g.n (sgn g.n)).2 g.n (sampleCosineWeighted q.1 q.2) := fun q => rfl
  simp_rw [e1, e3]
  rw [e2, ← lintegral_const_mul' _ _ ENNReal.ofReal_ne_top]
  refine lintegral_congr fun d => ?_
  by_cases h : V3.dot d g.n ≤ 0
  · rw [front_zero h]; simp
  · rw [V3.dot_comm g.n d, abs_of_pos (not_le.mp h), ← mul_assoc, ← mul_assoc (ENNReal.ofReal (1 / pA)), ← ENNReal.ofReal_mul (div_nonneg (not_le.mp h).le Real.pi_pos.le), ← ENNReal.ofReal_mul (one_div_nonneg.mpr hp.le)]
    congr 2
    unfold pdfCosine
    field_simp

/-- The position and the normal sampled on an area light have constant density. -/
theorem emission_point (sgn : V3 ℝ → Bool) (junk : V3 ℝ) (ts : List Tri) (M : Aff ℝ) (hA : 0 < (ts.map triArea).sum) (hM : M.det ≠ 0) (hS : ScalesArea M ts) {pA : ℝ} (hp0 : 0 < pA) (hpe : pA = 1 / ((ts.map triArea).sum * |M.det|)) (a b : ℝ) :
    HasDensityO uniform3 (fun u : ℝ × ℝ × ℝ => (sampleOnMesh sgn junk ts ⟨u.1, u.2.1, u.2.2, a, b⟩ M).map fun g => (g.p, g.n))
      (ts.map fun t => (triMeasure (triMap M t)).map fun x => (x, frontNormal M t)).sum (fun _ => some pA) := by
  refine ⟨measurable_const.aemeasurable, fun A hAm => ?_⟩
  have hsec : ∀ n, MeasurableSet {x : V3 ℝ | (x, n) ∈ A} := fun n => (measurable_id.prodMk measurable_const) hAm
  obtain ⟨h1, h2⟩ := mesh_law ts hA {u | ∃ a', (sampleOnMesh sgn junk ts ⟨u.1, u.2.1, u.2.2, a, b⟩ M).map (fun g => (g.p, g.n)) = some a' ∧ a' ∈ A} (fun t => triAt (triMap M t) ⁻¹' {x | (x, frontNormal M t) ∈ A})
    (fun t _ => measurable_triAt _ (hsec _)) fun d hd u hu i t hi ht hpos => by
      rw [mem_ofPred_eq, sampleOnMesh_eq sgn junk ts M hM d hd ⟨u.1, u.2.1, u.2.2, a, b⟩ i hi t ht hpos]
      simp [makeOnSurface]
  refine ⟨h1, h2.trans ?_⟩
  rw [lintegral_const, Measure.restrict_apply_univ, map_sum_apply]
  show _ = ENNReal.ofReal pA * _
  rw [← List.sum_map_mul_left]
  refine congrArg List.sum (List.map_congr_left fun t ht => ?_)
  rw [Measure.map_apply (measurable_id'.prodMk measurable_const) hAm]
  show _ = ENNReal.ofReal pA * triMeasure (triMap M t) {x | (x, frontNormal M t) ∈ A}
  unfold triMeasure
  rw [Measure.smul_apply, Measure.map_apply (measurable_triAt _) (hsec _), Measure.restrict_apply (measurable_triAt _ (hsec _)), smul_eq_mul, ← mul_assoc, ← ENNReal.ofReal_mul hp0.le, scales_term hA hM hS hpe t ht]

/-- What the rays of an area light carry, averaged over their random numbers. -/
theorem area_emission (sgn : V3 ℝ → Bool) (junk Ke : V3 ℝ) (ts : List Tri) (M : Aff ℝ) (hA : 0 < (ts.map triArea).sum) (hM : M.det ≠ 0) (hS : ScalesArea M ts) (i : Fin 3)
    {Φ : V3 ℝ → V3 ℝ → ℝ≥0∞} (hΦ : Measurable fun q : V3 ℝ × V3 ℝ => Φ q.1 q.2) :
    ∫⁻ p : ℝ × ℝ × ℝ, ∫⁻ q : ℝ × ℝ, worthRay i (fun g wo => Φ g.p wo) ((area sgn junk Ke ts).sampleRay ⟨p.1, p.2.1, p.2.2, q.1, q.2⟩ M) ∂uniform2 ∂uniform3 =
      (ts.map fun t => ∫⁻ x, ∫⁻ d, ENNReal.ofReal |V3.dot (frontNormal M t) d| * (front i Ke (frontNormal M t) d * Φ x d) ∂solidAngle ∂triMeasure (triMap M t)).sum := by
  obtain ⟨pA, hp, hp0, hpe⟩ := transformedInvA_pos ts M hA hM
  have hz : (0 : ℝ) ≤ 0 ∧ (0 : ℝ) < 1 := ⟨le_rfl, one_pos⟩
  have hG : Measurable fun a : (V3 ℝ × V3 ℝ) × V3 ℝ => ENNReal.ofReal |V3.dot a.1.2 a.2| * (front i Ke a.1.2 a.2 * Φ a.1.1 a.2) := by
    have h1 : Measurable fun a : (V3 ℝ × V3 ℝ) × V3 ℝ => a.1.2 := measurable_snd.comp measurable_fst
    exact (continuous_abs.measurable.comp (measurable_dot3 h1 measurable_snd)).ennreal_ofReal.mul ((measurable_front' i Ke h1 measurable_snd).mul (hΦ.comp ((measurable_fst.comp measurable_fst).prodMk measurable_snd)))
  have hI : Measurable fun a : V3 ℝ × V3 ℝ => ∫⁻ d, ENNReal.ofReal |V3.dot a.2 d| * (front i Ke a.2 d * Φ a.1 d) ∂solidAngle := hG.lintegral_prod_right'
  have hden := emission_point sgn junk ts M hA hM hS hp0 hpe 0 0
  rw [lintegral_sample hden (fun a => ENNReal.ofReal (1 / pA) * ∫⁻ d, ENNReal.ofReal |V3.dot a.2 d| * (front i Ke a.2 d * Φ a.1 d) ∂solidAngle) (hI.const_mul _).aemeasurable]
  · rw [lintegral_map_sum]
    refine congrArg List.sum (List.map_congr_left fun t _ => ?_)
    rw [lintegral_map ((hI.const_mul _).const_mul _) (measurable_id'.prodMk measurable_const)]
    refine lintegral_congr fun x => ?_
    show ENNReal.ofReal pA * _ = _
    rw [← mul_assoc, ← ENNReal.ofReal_mul hp0.le, mul_one_div_cancel hp0.ne', ENNReal.ofReal_one, one_mul]
  · filter_upwards [area_inside sgn junk ts M hA hM 0 0 hz hz, cube_ae] with u hu hc
    obtain ⟨g, t, e, ht, hin, hn, _, _⟩ := hu
    have hval : (⟨u.1, u.2.1, u.2.2, 0, 0⟩ : RayU).Valid := ⟨hc.1, hc.2.1, hc.2.2, hz, hz⟩
    obtain ⟨g', t', e', _, _, _, _, hon, _⟩ := sampleOnMesh_spec sgn junk ts ⟨u.1, u.2.1, u.2.2, 0, 0⟩ M hval hA hM
    rw [e] at e'; cases e'
    have e2 : ∀ q : ℝ × ℝ, (area sgn junk Ke ts).sampleRay ⟨u.1, u.2.1, u.2.2, q.1, q.2⟩ M =
        ray g (cosineAround sgn g ⟨u.1, u.2.1, u.2.2, q.1, q.2⟩) (areaEval Ke g (cosineAround sgn g ⟨u.1, u.2.1, u.2.2, q.1, q.2⟩)) (some (pA * pdfCosine)) := fun q => by
      have e3 : sampleOnMesh sgn junk ts ⟨u.1, u.2.1, u.2.2, q.1, q.2⟩ M = some g := e
      simp only [area, e3, hp, Option.map_some]
    have e4 : ∀ q : ℝ × ℝ, worthRay i (fun g wo => Φ g.p wo) ((area sgn junk Ke ts).sampleRay ⟨u.1, u.2.1, u.2.2, q.1, q.2⟩ M) =
        worthRay i (fun _ wo => Φ g.p wo) (ray g (cosineAround sgn g ⟨u.1, u.2.1, u.2.2, q.1, q.2⟩) (areaEval Ke g (cosineAround sgn g ⟨u.1, u.2.1, u.2.2, q.1, q.2⟩)) (some (pA * pdfCosine))) := fun q => by
      rw [e2]
      simp only [ray]
      cases divV (areaEval Ke g (cosineAround sgn g ⟨u.1, u.2.1, u.2.2, q.1, q.2⟩)) (pA * pdfCosine) <;> rfl
    simp_rw [e4]
    have := emission_direction sgn i Ke g hon.2.2.1 pA hp0 u.1 u.2.1 u.2.2 (F := fun d => Φ g.p d) (hΦ.comp measurable_prodMk_left)
    rw [this, e]
    rfl

/-- What a sampled light ray carries. -/
noncomputable def rayWorth (i : Fin 3) (F : SI → V3 ℝ → ℝ≥0∞) : SRes → ℝ≥0∞
  | .ok sp wo C => ENNReal.ofReal (chan i C) * F sp wo
  | .fail => 0
  | .undef => ⊤

/-- Averaged over the selection of a light, the sampled rays are the sum over the lights of their rays. -/
theorem rays_average {W : World} {node M Lt} (h : LightTable W node M Lt) (i : Fin 3) (F : SI → V3 ℝ → ℝ≥0∞) :
    averageLight (fun u => rayWorth i F (samplePrimaryRay W u .LE)) =
      ∑ j ∈ Finset.range W.st.lights.length, ∫⁻ p, ∫⁻ q, worthRay i (fun g wo => F ⟨.light, node j, g⟩ wo) ((Lt j).sampleRay ⟨p.1, p.2.1, p.2.2, q.1, q.2⟩ (M j)) ∂uniform2 ∂uniform3 := by
  have hnR : (0 : ℝ) < W.st.lights.length := by exact_mod_cast h.pos
  set n := W.st.lights.length with hn
  set G : ℕ → ℝ × ℝ × ℝ → ℝ × ℝ → ℝ≥0∞ := fun j p q => worthRay i (fun g wo => F ⟨.light, node j, g⟩ wo) ((Lt j).sampleRay ⟨p.1, p.2.1, p.2.2, q.1, q.2⟩ (M j)) with hG
  set sel : ℝ → Option (ℕ × ℝ) := fun u => some ((Scene.sampleLightSelection n u).1.toNat, (n : ℝ)) with hsel
  have hw : ∀ u, 0 ≤ u → u < 1 → ∀ (p : ℝ × ℝ × ℝ) (q : ℝ × ℝ), rayWorth i F (samplePrimaryRay W ⟨p.1, p.2.1, u, p.2.2, q.1, q.2⟩ .LE) = ENNReal.ofReal n * G ((Scene.sampleLightSelection n u).1.toNat) p q := by
    intro u h0 h1 p q
    obtain ⟨j, hj, _, e⟩ := h.select u h0 h1
    rw [← hn] at e hj
    simp only [samplePrimaryRay, sampleFromLight, ← hn, e, h.entry j hj, h.light j hj, if_true, RaySampleU.toLight, Int.toNat_natCast, one_div, inv_inv, hG]
    cases (Lt j).sampleRay ⟨p.1, p.2.1, p.2.2, q.1, q.2⟩ (M j) with
    | ok g wo C => simp only [wrap, rayWorth, worthRay, chan_smul, ENNReal.ofReal_mul hnR.le, mul_assoc]
    | fail => simp [wrap, rayWorth, worthRay]
    | undef => simp only [wrap, rayWorth, worthRay]; rw [ENNReal.mul_top (by simpa using hnR.ne')]
    | unsupported => simp only [wrap, rayWorth, worthRay]; rw [ENNReal.mul_top (by simpa using hnR.ne')]
  have e1 : averageLight (fun u => rayWorth i F (samplePrimaryRay W u .LE)) = ∫⁻ u, compWorth (fun j => ∫⁻ p, ∫⁻ q, G j p q ∂uniform2 ∂uniform3) (sel u) ∂uniform1 := by
    unfold averageLight
    refine lintegral_congr_ae (uniform1_ae.mono fun u hu => ?_)
    dsimp only
    simp_rw [hw u hu.1 hu.2]
    simp only [lintegral_const_mul' _ _ ENNReal.ofReal_ne_top]
    rfl
  rw [e1, select_expect (N := n) (I := fun j => Set.Ico ((j : ℝ) / n) ((j + 1) / n)) (p := fun _ => 1 / (n : ℝ))]
  · rw [Finset.filter_true_of_mem]
    intro j _
    exact (one_div_pos.mpr hnR).ne'
  · intro j hj
    refine ⟨measurableSet_Ico, ?_⟩
    rw [uniform1_Ico (by positivity)]
    · congr 1; field_simp; ring
    · rw [div_le_one hnR]; exact_mod_cast hj
  · intro a ha b hb hab
    refine Set.disjoint_left.mpr fun x hx hy => hab ?_
    have h1 := (div_le_iff₀ hnR).mp hx.1
    have h2 := (lt_div_iff₀ hnR).mp hx.2
    have h3 := (div_le_iff₀ hnR).mp hy.1
    have h4 := (lt_div_iff₀ hnR).mp hy.2
    have h5 : (a : ℝ) < b + 1 := by linarith
    have h6 : (b : ℝ) < a + 1 := by linarith
    have h5 : a < b + 1 := by exact_mod_cast h5
    have h6 : b < a + 1 := by exact_mod_cast h6
    omega
  · intro _ _; positivity
  · intro u h0 h1
    obtain ⟨j, hj, hm, e⟩ := h.select u h0 h1
    rw [← hn] at e hm hj
    exact ⟨j, hj, hm, by simp [hsel, e]⟩

end LM.Transport
