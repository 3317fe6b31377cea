import Verif.Props.C82_Path
import Verif.Props.C81_Select
import Verif.Props.C81_Area
/-
  C82: light samples, averaged over the selection of a light.
-/
namespace LM.Transport
open MeasureTheory LM LM.Surface LM.Material LM.Light LM.Path LM.Render LM.Solid
open scoped ENNReal

/-- The lights of a scene, their nodes and transforms, in the order of the scene's light table. -/
structure LightTable (W : World) (node : ℕ → Int) (M : ℕ → Aff ℝ) (Lt : ℕ → Light) : Prop where
  pos : 0 < W.st.lights.length
  entry : ∀ j < W.st.lights.length, Scene.lightPrimitiveIndexAt W.st (j : Int) = some (M j, node j)
  index : ∀ j < W.st.lights.length, Scene.lightIndexAt W.st (node j) = some j
  light : ∀ j < W.st.lights.length, W.lightAt (node j) = some (Lt j)

theorem LightTable.select {W : World} {node M Lt} (h : LightTable W node M Lt) (u : ℝ) (h0 : 0 ≤ u) (h1 : u < 1) : ∃ j < W.st.lights.length, u ∈ Set.Ico ((j : ℝ) / W.st.lights.length) ((j + 1) / W.st.lights.length) ∧
    Scene.sampleLightSelection W.st.lights.length u = ((j : Int), some (1 / (W.st.lights.length : ℝ))) := by
  obtain ⟨a, b, c, d, _⟩ := Scene.C42_uniform W.st.lights.length h.pos u h0 h1
  obtain ⟨j, hj⟩ := Int.eq_ofNat_of_zero_le a
  refine ⟨j, by omega, ?_, ?_⟩
  · have := (c j).mp hj
    push_cast at this
    exact this
  · have := d j
    exact Prod.ext hj (this.1.trans this.2)

theorem uniform1_Ico {a b : ℝ} (ha : 0 ≤ a) (hb : b ≤ 1) : uniform1 (Set.Ico a b) = ENNReal.ofReal (b - a) := by
  unfold uniform1
  rw [Measure.restrict_apply measurableSet_Ico, Set.inter_eq_left.mpr (Set.Ico_subset_Ico ha hb), Real.volume_Ico]

/-- One channel of a light sample at sp, weighted with a function of the vertex on the light and the direction towards it; nothing if the light is not visible. -/
noncomputable def lightWorthOf (Q : Query) (sp : SI) (i : Fin 3) (F : SI → V3 ℝ → ℝ≥0∞) : SRes → ℝ≥0∞
  | .ok spL woL wL => if Q.visible sp spL then ENNReal.ofReal (chan i wL) * F spL (-woL) else 0
  | .fail => 0
  | .undef => ⊤

/-- Averaged over the selection of a light, a light sample is the sum over the lights of their samples. -/
theorem lights_average_of {W : World} {node M Lt} (h : LightTable W node M Lt) (Q : Query) (sp : SI) (i : Fin 3) (F : SI → V3 ℝ → ℝ≥0∞) :
    averageLight (fun u => lightWorthOf Q sp i F (sampleDirect W u sp .LE)) =
      ∑ j ∈ Finset.range W.st.lights.length, ∫⁻ p, ∫⁻ q, worthRay i (fun g wo => if Q.visible sp ⟨.light, node j, g⟩ then F ⟨.light, node j, g⟩ (-wo) else 0) ((Lt j).sampleDirect ⟨p.1, p.2.1, p.2.2, q.1, q.2⟩ sp.geom (M j)) ∂uniform2 ∂uniform3 := by
  have hnR : (0 : ℝ) < W.st.lights.length := by exact_mod_cast h.pos
  set n := W.st.lights.length with hn
  set G : ℕ → ℝ × ℝ × ℝ → ℝ × ℝ → ℝ≥0∞ := fun j p q => worthRay i (fun g wo => if Q.visible sp ⟨.light, node j, g⟩ then F ⟨.light, node j, g⟩ (-wo) else 0) ((Lt j).sampleDirect ⟨p.1, p.2.1, p.2.2, q.1, q.2⟩ sp.geom (M j)) with hG
  set sel : ℝ → Option (ℕ × ℝ) := fun u => some ((Scene.sampleLightSelection n u).1.toNat, (n : ℝ)) with hsel
  have hw : ∀ u, 0 ≤ u → u < 1 → ∀ (p : ℝ × ℝ × ℝ) (q : ℝ × ℝ), lightWorthOf Q sp i F (sampleDirect W ⟨p.1, p.2.1, u, p.2.2, q.1, q.2⟩ sp .LE) = ENNReal.ofReal n * G ((Scene.sampleLightSelection n u).1.toNat) p q := by
    intro u h0 h1 p q
    obtain ⟨j, hj, _, e⟩ := h.select u h0 h1
    rw [← hn] at e hj
    simp only [sampleDirect, sampleFromLight, ← hn, e, h.entry j hj, h.light j hj, if_true, RaySampleU.toLight, Int.toNat_natCast, one_div, inv_inv, hG]
    cases (Lt j).sampleDirect ⟨p.1, p.2.1, p.2.2, q.1, q.2⟩ sp.geom (M j) with
    | ok g wo C =>
      simp only [wrap, lightWorthOf, worthRay, chan_smul, ENNReal.ofReal_mul hnR.le, mul_assoc]
      split <;> simp
    | fail => simp [wrap, lightWorthOf, worthRay]
    | undef => simp only [wrap, lightWorthOf, worthRay]; rw [ENNReal.mul_top (by simpa using hnR.ne')]
    | unsupported => simp only [wrap, lightWorthOf, worthRay]; rw [ENNReal.mul_top (by simpa using hnR.ne')]
  have e1 : averageLight (fun u => lightWorthOf Q sp i F (sampleDirect W u sp .LE)) = ∫⁻ u, compWorth (fun j => ∫⁻ p, ∫⁻ q, G j p q ∂uniform2 ∂uniform3) (sel u) ∂uniform1 := by
    unfold averageLight
    refine lintegral_congr_ae (uniform1_ae.mono fun u hu => ?_)
    dsimp only
    simp_rw [hw u hu.1 hu.2]
    simp only [lintegral_const_mul' _ _ ENNReal.ofReal_ne_top]
    rfl
  rw [e1, select_expect (N := n) (I := fun j => Set.Ico ((j : ℝ) / n) ((j + 1) / n)) (p := fun _ => 1 / (n : ℝ))]
  · rw [Finset.filter_true_of_mem]
    intro j _
    exact (one_div_pos.mpr hnR).ne'
  · intro j hj
    refine ⟨measurableSet_Ico, ?_⟩
    rw [uniform1_Ico (by positivity)]
    · congr 1; field_simp; ring
    · rw [div_le_one hnR]; exact_mod_cast hj
  · intro a ha b hb hab
    refine Set.disjoint_left.mpr fun x hx hy => hab ?_
    have h1 := (div_le_iff₀ hnR).mp hx.1
    have h2 := (lt_div_iff₀ hnR).mp hx.2
    have h3 := (div_le_iff₀ hnR).mp hy.1
    have h4 := (lt_div_iff₀ hnR).mp hy.2
    have h5 : (a : ℝ) < b + 1 := by linarith
    have h6 : (b : ℝ) < a + 1 := by linarith
    have h5 : a < b + 1 := by exact_mod_cast h5
    have h6 : b < a + 1 := by exact_mod_cast h6
    omega
  · intro _ _; positivity
  · intro u h0 h1
    obtain ⟨j, hj, hm, e⟩ := h.select u h0 h1
    rw [← hn] at e hm hj
    exact ⟨j, hj, hm, by simp [hsel, e]⟩

theorem lights_average {W : World} {node M Lt} (h : LightTable W node M Lt) (Q : Query) (sp : SI) (i : Fin 3) (F : V3 ℝ → ℝ≥0∞) :
    averageLight (fun u => lightWorth Q sp i F (sampleDirect W u sp .LE)) =
      ∑ j ∈ Finset.range W.st.lights.length, ∫⁻ p, ∫⁻ q, worthRay i (fun g wo => if Q.visible sp ⟨.light, node j, g⟩ then F (-wo) else 0) ((Lt j).sampleDirect ⟨p.1, p.2.1, p.2.2, q.1, q.2⟩ sp.geom (M j)) ∂uniform2 ∂uniform3 := by
  have := lights_average_of h Q sp i fun _ => F
  rw [← this]
  congr 1

/-- Every light sample is that of a light of the table, its weight times the number of lights. -/
theorem LightTable.sampled {W : World} {node M Lt} (h : LightTable W node M Lt) (u : RaySampleU) (h0 : 0 ≤ u.upc0) (h1 : u.upc0 < 1) (sp : SI) :
    ∃ j < W.st.lights.length, sampleDirect W u sp .LE = wrap .light (node j) W.st.lights.length ((Lt j).sampleDirect u.toLight sp.geom (M j)) := by
  obtain ⟨j, hj, _, e⟩ := h.select u.upc0 h0 h1
  exact ⟨j, hj, by simp only [sampleDirect, sampleFromLight, e, h.entry j hj, h.light j hj, if_true, one_div, inv_inv]⟩

/-- The density reported for a vertex on a light of the table. -/
theorem LightTable.pdf {W : World} {node M Lt} (h : LightTable W node M Lt) (sp : SI) (g : Geom) (wo : V3 ℝ) (j : ℕ) (hj : j < W.st.lights.length) (p : ℝ) (hp : (Lt j).pdfDirect sp.geom g (M j) wo true = some p) :
    pdfDirect W sp ⟨.light, node j, g⟩ wo true = some (1 / (W.st.lights.length : ℝ) * p) := by
  have hn : W.st.lights.length ≠ 0 := h.pos.ne'
  simp only [pdfDirect, pdfOnLight, h.index j hj, h.entry j hj, h.light j hj, hp, Scene.pdfLightSelection, if_neg hn, Option.bind_eq_bind, Option.bind_some]
  rfl

end LM.Transport
