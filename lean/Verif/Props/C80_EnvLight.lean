import Verif.Props.C80_Env
import Verif.Props.C80_Phase
/-
  C80: image-based environment lights sample directions with the density they report.
-/
namespace LM.Solid
open MeasureTheory LM Set LM.MathF LM.Surface LM.Material LM.Light
open scoped ENNReal Real

theorem measurable_envDir (rot : ℝ) : Measurable fun q : ℝ × ℝ => envDir rot q.1 q.2 := by
  have h1 : Measurable fun q : ℝ × ℝ => π * q.2 := measurable_snd.const_mul _
  have h2 : Measurable fun q : ℝ × ℝ => 2 * π * q.1 + rot := (measurable_fst.const_mul _).add_const _
  unfold envDir
  exact measurable_mk (f := fun q : ℝ × ℝ => (⟨Real.sin (π * q.2) * Real.sin (2 * π * q.1 + rot), Real.cos (π * q.2), Real.sin (π * q.2) * Real.cos (2 * π * q.1 + rot)⟩ : V3 ℝ))
    ((Real.measurable_sin.comp h1).mul (Real.measurable_sin.comp h2)) (Real.measurable_cos.comp h1) ((Real.measurable_sin.comp h1).mul (Real.measurable_cos.comp h2))

/-- Solid angle in map coordinates. -/
theorem env_cov (rot : ℝ) {G : V3 ℝ → ℝ≥0∞} (hG : Measurable G) : ∫⁻ d, G d ∂solidAngle = ∫⁻ q : ℝ × ℝ, ENNReal.ofReal (2 * π ^ 2 * Real.sin (π * q.2)) * G (envDir rot q.1 q.2) ∂uniform2 := by
  have hpi := Real.pi_pos
  have hF : Frame (⟨Real.sin rot, 0, Real.cos rot⟩ : V3 ℝ) ⟨Real.cos rot, 0, -Real.sin rot⟩ ⟨0, 1, 0⟩ := by
    have := Real.sin_sq_add_cos_sq rot
    constructor <;> simp only [V3.dot] <;> linarith
  have hGl := hG.comp (measurable_lin (⟨Real.sin rot, 0, Real.cos rot⟩ : V3 ℝ) ⟨Real.cos rot, 0, -Real.sin rot⟩ ⟨0, 1, 0⟩)
  have hdir : ∀ u v : ℝ, lin (⟨Real.sin rot, 0, Real.cos rot⟩ : V3 ℝ) ⟨Real.cos rot, 0, -Real.sin rot⟩ ⟨0, 1, 0⟩ ⟨Real.sin (π * v) * Real.cos (2 * π * u), Real.sin (π * v) * Real.sin (2 * π * u), Real.cos (π * v)⟩ = envDir rot u v := by
    intro u v
    unfold envDir
    simp only
    rw [Real.sin_add, Real.cos_add]
    ext <;> simp [lin] <;> ring
  rw [← lintegral_frame hF hG, lintegral_spherical (f := fun d => G (lin (⟨Real.sin rot, 0, Real.cos rot⟩ : V3 ℝ) ⟨Real.cos rot, 0, -Real.sin rot⟩ ⟨0, 1, 0⟩ d)) hGl]
  have h1 : ∀ θ : ℝ, ∫⁻ t in Ioo (-π) π, ENNReal.ofReal (Real.sin θ) * G (lin (⟨Real.sin rot, 0, Real.cos rot⟩ : V3 ℝ) ⟨Real.cos rot, 0, -Real.sin rot⟩ ⟨0, 1, 0⟩ ⟨Real.sin θ * Real.cos t, Real.sin θ * Real.sin t, Real.cos θ⟩) =
      ENNReal.ofReal (2 * π) * (ENNReal.ofReal (Real.sin θ) * ∫⁻ u in Ioo (0 : ℝ) 1, G (lin (⟨Real.sin rot, 0, Real.cos rot⟩ : V3 ℝ) ⟨Real.cos rot, 0, -Real.sin rot⟩ ⟨0, 1, 0⟩ ⟨Real.sin θ * Real.cos (2 * π * u), Real.sin θ * Real.sin (2 * π * u), Real.cos θ⟩)) := by
    intro θ
    rw [azimuth (f := fun d => G (lin (⟨Real.sin rot, 0, Real.cos rot⟩ : V3 ℝ) ⟨Real.cos rot, 0, -Real.sin rot⟩ ⟨0, 1, 0⟩ d)) hGl (Real.sin θ) (Real.cos θ), lintegral_const_mul' _ _ ENNReal.ofReal_ne_top]
    rw [mul_left_comm, ← mul_assoc (ENNReal.ofReal (2 * π)), ← ENNReal.ofReal_mul (by positivity), mul_one_div_cancel (by positivity), ENNReal.ofReal_one, one_mul]
  simp only [h1]
  rw [cov_scale hpi, ← lintegral_const_mul' _ _ ENNReal.ofReal_ne_top]
  have hm : Measurable fun q : ℝ × ℝ => ENNReal.ofReal (2 * π ^ 2 * Real.sin (π * q.2)) * G (envDir rot q.1 q.2) :=
    (((Real.measurable_sin.comp (measurable_snd.const_mul _)).const_mul _).ennreal_ofReal).mul (hG.comp (measurable_envDir rot))
  rw [lintegral_uniform2 hm, lintegral_lintegral_swap hm.aemeasurable]
  refine lintegral_congr fun v => ?_
  dsimp only
  rw [lintegral_const_mul' _ _ ENNReal.ofReal_ne_top, ← mul_assoc, ← mul_assoc, ← ENNReal.ofReal_mul hpi.le, ← ENNReal.ofReal_mul (by positivity)]
  congr 1
  · congr 1; rw [mul_comm v π]; ring
  · refine lintegral_congr fun u => ?_
    rw [mul_comm v π, hdir]

theorem lintegral_neg {G : V3 ℝ → ℝ≥0∞} (hG : Measurable G) : ∫⁻ d, G (-d) ∂solidAngle = ∫⁻ d, G d ∂solidAngle := by
  have hF : Frame (⟨-1, 0, 0⟩ : V3 ℝ) ⟨0, -1, 0⟩ ⟨0, 0, -1⟩ := by
    constructor <;> simp [V3.dot]
  rw [← lintegral_frame hF hG]
  refine lintegral_congr fun d => ?_
  congr 1
  ext <;> simp [lin]

theorem measurable_atan2 : Measurable fun d : V3 ℝ => atan2 d.x d.z := by
  unfold atan2
  have : (fun d : V3 ℝ => Complex.arg ⟨d.z, d.x⟩) = Complex.arg ∘ (fun p : ℝ × ℝ => Complex.measurableEquivRealProd.symm p) ∘ fun d : V3 ℝ => (d.z, d.x) := by
    ext d; rfl
  rw [this]
  exact Complex.measurable_arg.comp (Complex.measurableEquivRealProd.symm.measurable.comp (measurable_z.prodMk measurable_x))

theorem measurable_envCoords (rot : ℝ) : Measurable fun d : V3 ℝ => envCoords rot d := by
  have ha := measurable_atan2
  have h1 : Measurable fun d : V3 ℝ => if atan2 d.x d.z < 0 then atan2 d.x d.z + 2 * π else atan2 d.x d.z := Measurable.ite (measurableSet_lt ha measurable_const) (ha.add_const _) ha
  have h2 : Measurable fun d : V3 ℝ => ((if atan2 d.x d.z < 0 then atan2 d.x d.z + 2 * π else atan2 d.x d.z) - rot) * (1 / 2) / π := ((h1.sub_const _).mul_const _).div_const _
  have h3 : Measurable fun x : ℝ => frac x := by
    unfold frac
    exact measurable_id.sub ((measurable_of_countable fun z : ℤ => (z : ℝ)).comp Int.measurable_floor)
  unfold envCoords
  exact (h3.comp h2).prodMk ((Real.measurable_arccos.comp measurable_y).div_const _)

theorem measurable_convert2 (g : Geom) {p : V3 ℝ → ℝ} (hp : Measurable p) : Measurable fun d : V3 ℝ => convertSAtoProjSA (p d) g d := by
  unfold convertSAtoProjSA
  by_cases h : g.degenerated = true
  · simp only [h, if_true]; exact hp
  · simp only [h, Bool.false_eq_true, if_false]
    have hm : Measurable fun d : V3 ℝ => |V3.dot g.n d| := continuous_abs.measurable.comp (measurable_cdot g.n)
    exact Measurable.ite (measurableSet_eq_fun hm measurable_const) measurable_const (hp.div hm)

theorem measurable_envPdf (d2 : Dist.Dist2 ℝ) (rot : ℝ) (g : Geom) (junk : V3 ℝ) : Measurable fun d : V3 ℝ => dens (envPdfDirect d2 rot g (makeInfinite (-d) junk junk)) := by
  set tbl : ℤ × ℤ → Option ℝ := fun z => if min z.2 ((d2.h : Int) - 1) < 0 then none else (d2.ds[(min z.2 ((d2.h : Int) - 1)).toNat]?).map (fun r => Dist.pmf d2.m (min z.2 ((d2.h : Int) - 1)) * Dist.pmf r z.1 * (d2.w : ℝ) * (d2.h : ℝ)) with htbl
  set H : V3 ℝ × (ℤ × ℤ) → ℝ≥0∞ := fun p => dens (if safeSqrt (1 - p.1.y * p.1.y) = 0 then some 0 else (tbl p.2).map (fun x => convertSAtoProjSA (x / (2 * π * π * safeSqrt (1 - p.1.y * p.1.y))) g p.1)) with hH
  have hs : Measurable fun d : V3 ℝ => safeSqrt (1 - d.y * d.y) := measurable_safeSqrt.comp (measurable_const.sub (measurable_y.mul measurable_y))
  have hHm : Measurable H := by
    refine measurable_from_prod_countable_left fun z => ?_
    have hset : MeasurableSet {d : V3 ℝ | safeSqrt (1 - d.y * d.y) = 0} := measurableSet_eq_fun hs measurable_const
    cases hz : tbl z with
    | none =>
      have : (fun d => H (d, z)) = fun d : V3 ℝ => if safeSqrt (1 - d.y * d.y) = 0 then (ENNReal.ofReal 0) else ⊤ := by
        ext d
        simp only [hH, hz]
        split <;> rfl
      rw [this]
      exact Measurable.ite hset measurable_const measurable_const
    | some x =>
      have : (fun d => H (d, z)) = fun d : V3 ℝ => if safeSqrt (1 - d.y * d.y) = 0 then (ENNReal.ofReal 0) else ENNReal.ofReal (convertSAtoProjSA (x / (2 * π * π * safeSqrt (1 - d.y * d.y))) g d) := by
        ext d
        simp only [hH, hz]
        split <;> rfl
      rw [this]
      exact Measurable.ite hset measurable_const (measurable_convert2 g (measurable_const.div (hs.const_mul _))).ennreal_ofReal
  have : (fun d : V3 ℝ => dens (envPdfDirect d2 rot g (makeInfinite (-d) junk junk))) = H ∘ fun d : V3 ℝ => (d, (⌊(envCoords rot d).1 * d2.w⌋, ⌊(envCoords rot d).2 * d2.h⌋)) := by
    ext d
    simp only [hH, htbl, Function.comp, envPdfDirect, makeInfinite, neg_neg, Dist.pdf, Dist.toIndex]
  rw [this]
  have hc := measurable_envCoords rot
  exact hHm.comp (measurable_id.prodMk ((Int.measurable_floor.comp (hc.fst.mul_const _)).prodMk (Int.measurable_floor.comp (hc.snd.mul_const _))))

/-- C80 (partial). Image-based environment lights send light to a point g from directions with the density they report, with respect to the solid angle at g, if the weights of the map are non-negative and no row is zero.
    Missing: the weights the light actually computes can be negative (C46_negation_env_weights). -/
theorem C80_env_direct_partial (sgn : V3 ℝ → Bool) (junk : V3 ℝ) (tex : ℝ → ℝ → V3 ℝ) (ws : List ℝ) (w h : Nat) (hw : 0 < w) (hh : 0 < h) (hlen : ws.length = w * h) (hnn : ∀ x ∈ ws, 0 ≤ x)
    (hrow : ∀ i < h, 0 < (Dist.rowOf ws w i).sum) (rot : ℝ) (c : V3 ℝ) (r : ℝ) (M : Aff ℝ) (g : Geom) (z : ℝ) :
    ∃ d2, Dist.init Dist.fresh ws w h = some d2 ∧
      HasDensityO uniform4 (fun u => resDir ((env sgn junk tex d2 rot c r).sampleDirect ⟨u.2.1, u.2.2, z, u.1.1, u.1.2⟩ g M)) (solidAngleAt g)
        (fun wo => (env sgn junk tex d2 rot c r).pdfDirect g (makeInfinite wo junk junk) M wo false) := by
  obtain ⟨d2, hd, hden⟩ := C80_dist2_partial ws w h hw hh hlen hnn hrow
  obtain ⟨d2', hd', hpdf, hsam⟩ := Dist.C29_sample_partial ws w h hw hh hlen hnn hrow
  rw [hd] at hd'; cases hd'
  refine ⟨d2, hd, ?_⟩
  have hpi := Real.pi_pos
  have hpm : Measurable fun wo : V3 ℝ => dens (envPdfDirect d2 rot g (makeInfinite wo junk junk)) := by
    have := (measurable_envPdf d2 rot g junk).comp measurable_neg3
    simpa only [Function.comp_def, neg_neg] using this
  refine ⟨hpm.aemeasurable, fun A hA => ?_⟩
  -- the density at the direction of map coordinates
  have hval : ∀ q : ℝ × ℝ, 0 ≤ q.1 → q.1 < 1 → 0 < q.2 → q.2 < 1 → ∀ p, Dist.pdf d2 q.1 q.2 = some p →
      envPdfDirect d2 rot g (makeInfinite (-envDir rot q.1 q.2) junk junk) = some (convertSAtoProjSA (p / (2 * π * π * Real.sin (π * q.2))) g (envDir rot q.1 q.2)) := by
    intro q a0 a1 b0 b1 p hp
    have hst : 0 < Real.sin (π * q.2) := Real.sin_pos_of_pos_of_lt_pi (by positivity) (by nlinarith)
    have hrt := C46_env_round_trip rot q.1 q.2 a0 a1 b0 b1
    have hsafe : safeSqrt (1 - (envDir rot q.1 q.2).y * (envDir rot q.1 q.2).y) = Real.sin (π * q.2) := by
      have : 1 - (envDir rot q.1 q.2).y * (envDir rot q.1 q.2).y = Real.sin (π * q.2) ^ 2 := by
        simp only [envDir]
        linear_combination -(Real.sin_sq_add_cos_sq (π * q.2))
      rw [this, safeSqrt_of_nonneg (by positivity), Real.sqrt_sq hst.le]
    unfold envPdfDirect
    simp only [makeInfinite, neg_neg, hrt, hsafe, hst.ne', if_false, hp, Option.map_some]
  set B : Set (ℝ × ℝ) := {q | -envDir rot q.1 q.2 ∈ A ∧ 0 < q.2 ∧ cosOf g (envDir rot q.1 q.2) ≠ 0} with hB
  have hBm : MeasurableSet B := ((measurable_neg3.comp (measurable_envDir rot)) hA).inter ((measurableSet_lt measurable_const measurable_snd).inter (measurableSet_eq_fun ((measurable_cosOf g).comp (measurable_envDir rot)) measurable_const).compl)
  have hcube : ∀ᵐ u ∂uniform4, ((0 ≤ u.1.1 ∧ u.1.1 < 1) ∧ (0 ≤ u.1.2 ∧ u.1.2 < 1)) ∧ ((0 ≤ u.2.1 ∧ u.2.1 < 1) ∧ (0 ≤ u.2.2 ∧ u.2.2 < 1)) := by
    have h2 : ∀ᵐ q ∂uniform2, (0 ≤ q.1 ∧ q.1 < 1) ∧ (0 ≤ q.2 ∧ q.2 < 1) := by
      unfold uniform2
      refine (ae_restrict_mem (measurableSet_Ico.prod measurableSet_Ico)).mono fun q hq => ?_
      exact ⟨hq.1, hq.2⟩
    have t1 : Measure.QuasiMeasurePreserving (Prod.fst : (ℝ × ℝ) × (ℝ × ℝ) → ℝ × ℝ) uniform4 uniform2 := Measure.quasiMeasurePreserving_fst
    have t2 : Measure.QuasiMeasurePreserving (Prod.snd : (ℝ × ℝ) × (ℝ × ℝ) → ℝ × ℝ) uniform4 uniform2 := Measure.quasiMeasurePreserving_snd
    exact (t1.ae h2).and (t2.ae h2)
  have hcz : ∀ d, cosOf g d ≠ 0 ↔ g.degenerated = true ∨ V3.dot g.n d ≠ 0 := by
    intro d
    unfold cosOf
    cases g.degenerated with
    | true => simp
    | false => simp [V3.dot_comm g.n d]
  have hev : ({u : (ℝ × ℝ) × (ℝ × ℝ) | ∃ a, resDir ((env sgn junk tex d2 rot c r).sampleDirect ⟨u.2.1, u.2.2, z, u.1.1, u.1.2⟩ g M) = some a ∧ a ∈ A} : Set _) =ᵐ[uniform4]
      {u : (ℝ × ℝ) × (ℝ × ℝ) | ∃ q, Dist.sample2 d2 u.1.1 u.1.2 u.2.1 u.2.2 = some q ∧ q ∈ B} := by
    refine hcube.mono fun u hu => ?_
    obtain ⟨⟨⟨a0, a1⟩, b0, b1⟩, ⟨c0, c1⟩, d0, d1⟩ := hu
    obtain ⟨x, y, wxy, hx, hy, hget, hpos, hs, hu0, hu1, hv0, hv1⟩ := hsam u.1.1 u.1.2 u.2.1 u.2.2 a0 a1 b0 b1 c0 c1 d0 d1
    obtain ⟨wxy', hget', hp⟩ := hpdf x y u.2.1 u.2.2 hx hy c0 c1 d0 d1
    rw [hget] at hget'; cases hget'
    set q : ℝ × ℝ := (((x : ℝ) + u.2.1) / w, ((y : ℝ) + u.2.2) / h) with hq
    have htot : 0 < (Dist.rowSums ws w h).sum := by
      have hl : (Dist.rowSums ws w h).length = h := by simp [Dist.rowSums]
      have hsums : ∀ s ∈ Dist.rowSums ws w h, 0 ≤ s := by
        intro s hm
        obtain ⟨i, hi, rfl⟩ := List.mem_map.mp hm
        exact (hrow i (List.mem_range.mp hi)).le
      have h0 : (Dist.rowSums ws w h)[0]'(by rw [hl]; exact hh) ≤ (Dist.rowSums ws w h).sum := List.single_le_sum hsums _ (List.getElem_mem _)
      have : (Dist.rowSums ws w h)[0]'(by rw [hl]; exact hh) = (Dist.rowOf ws w 0).sum := by simp [Dist.rowSums]
      rw [this] at h0
      linarith [hrow 0 hh]
    have hwp : (0:ℝ) < w := by exact_mod_cast hw
    have hhp : (0:ℝ) < h := by exact_mod_cast hh
    have hpp : 0 < wxy / (Dist.rowSums ws w h).sum * w * h := by positivity
    have hsd : (env sgn junk tex d2 rot c r).sampleDirect ⟨u.2.1, u.2.2, z, u.1.1, u.1.2⟩ g M = rayOrFail (makeInfinite (-envDir rot q.1 q.2) junk junk) (-envDir rot q.1 q.2) (envEval tex rot (makeInfinite (-envDir rot q.1 q.2) junk junk))
        (envPdfDirect d2 rot g (makeInfinite (-envDir rot q.1 q.2) junk junk)) := by
      simp only [env, hs]
    rw [eq_iff_iff]
    show (∃ a, resDir ((env sgn junk tex d2 rot c r).sampleDirect ⟨u.2.1, u.2.2, z, u.1.1, u.1.2⟩ g M) = some a ∧ a ∈ A) ↔ ∃ q, Dist.sample2 d2 u.1.1 u.1.2 u.2.1 u.2.2 = some q ∧ q ∈ B
    rw [hs, hsd]
    have hr : (∃ q', some q = some q' ∧ q' ∈ B) ↔ q ∈ B := ⟨by rintro ⟨q', e, h⟩; cases e; exact h, fun h => ⟨_, rfl, h⟩⟩
    refine Iff.trans ?_ hr.symm
    rcases hv0.eq_or_lt with hv | hv
    · -- the pole
      have hy0 : safeSqrt (1 - (envDir rot q.1 q.2).y * (envDir rot q.1 q.2).y) = 0 := by
        have : q.2 = 0 := hv.symm
        simp only [envDir, this, mul_zero, Real.cos_zero]
        simp [safeSqrt]
      have : envPdfDirect d2 rot g (makeInfinite (-envDir rot q.1 q.2) junk junk) = some 0 := by
        unfold envPdfDirect
        simp only [makeInfinite, neg_neg, hy0, if_true]
      rw [this, rayOrFail_zero]
      constructor
      · rintro ⟨a, h, _⟩; cases h
      · rintro ⟨_, h, _⟩
        exact absurd hv.symm h.ne'
    · have hst : 0 < Real.sin (π * q.2) := Real.sin_pos_of_pos_of_lt_pi (mul_pos hpi hv) (by have : q.2 < 1 := hv1; nlinarith)
      rw [hval q hu0 hu1 hv hv1 _ hp]
      by_cases hc : cosOf g (envDir rot q.1 q.2) = 0
      · have hc' : ¬ (g.degenerated = true ∨ V3.dot g.n (envDir rot q.1 q.2) ≠ 0) := fun h => ((hcz _).mpr h) hc
        have hdg : g.degenerated = false := by
          cases h : g.degenerated with
          | true => exact absurd (Or.inl h) hc'
          | false => rfl
        have hdn : V3.dot g.n (envDir rot q.1 q.2) = 0 := by
          by_contra h; exact hc' (Or.inr h)
        rw [(C43_convert _ g _).2.2 hdg hdn, rayOrFail_zero]
        constructor
        · rintro ⟨a, h, _⟩; cases h
        · rintro ⟨_, _, h⟩; exact absurd hc h
      · have hcp := convert_pos (wxy / (Dist.rowSums ws w h).sum * w * h / (2 * π * π * Real.sin (π * q.2))) (by positivity) g (envDir rot q.1 q.2) ((hcz _).mp hc)
        obtain ⟨C, e, _⟩ := rayOrFail_pos (makeInfinite (-envDir rot q.1 q.2) junk junk) (-envDir rot q.1 q.2) (envEval tex rot (makeInfinite (-envDir rot q.1 q.2) junk junk)) _ hcp
        rw [e]
        constructor
        · rintro ⟨a, h, hA'⟩; cases h; exact ⟨hA', hv, hc⟩
        · rintro ⟨h, _⟩; exact ⟨_, rfl, h⟩
  obtain ⟨n1, n2⟩ := hden.2 B hBm
  refine ⟨n1.congr hev.symm, ?_⟩
  rw [measure_congr hev, n2, lintegral_solidAngleAt hA, ← lintegral_indicator hA]
  set G : V3 ℝ → ℝ≥0∞ := A.indicator fun d => ENNReal.ofReal (cosOf g d) * dens ((env sgn junk tex d2 rot c r).pdfDirect g (makeInfinite d junk junk) M d false) with hG
  have hGm : Measurable G := (((measurable_cosOf g).ennreal_ofReal).mul hpm).indicator hA
  rw [← lintegral_neg hGm, env_cov rot (G := fun d => G (-d)) (hGm.comp measurable_neg3), ← lintegral_indicator hBm]
  have hsq : ∀ᵐ q ∂uniform2, (0 ≤ q.1 ∧ q.1 < 1) ∧ (0 < q.2 ∧ q.2 < 1) := by
    have hne : ∀ᵐ q ∂uniform2, q.2 ≠ 0 := by
      have h1 : ∀ᵐ x ∂uniform1, x ≠ 0 := by
        unfold uniform1
        refine ae_restrict_of_ae ?_
        rw [ae_iff]; simp
      have t2 : Measure.QuasiMeasurePreserving (Prod.snd : ℝ × ℝ → ℝ) uniform2 uniform1 := by rw [uniform2_prod]; exact Measure.quasiMeasurePreserving_snd
      exact t2.ae h1
    filter_upwards [uniform2_ae, hne] with q hq hq0
    exact ⟨hq.1, lt_of_le_of_ne hq.2.1 (Ne.symm hq0), hq.2.2⟩
  refine lintegral_congr_ae (hsq.mono fun q hq => ?_)
  obtain ⟨⟨a0, a1⟩, b0, b1⟩ := hq
  beta_reduce
  have hst : 0 < Real.sin (π * q.2) := Real.sin_pos_of_pos_of_lt_pi (mul_pos hpi b0) (by nlinarith)
  -- q lies in a cell
  obtain ⟨x, y, hx, hy, a, b, ha0, ha1, hb0, hb1, hqe⟩ : ∃ x y : Nat, x < w ∧ y < h ∧ ∃ a b : ℝ, 0 ≤ a ∧ a < 1 ∧ 0 ≤ b ∧ b < 1 ∧ q = (((x : ℝ) + a) / w, ((y : ℝ) + b) / h) := by
    have : q ∈ Ico (0 : ℝ) 1 ×ˢ Ico (0 : ℝ) 1 := ⟨⟨a0, a1⟩, b0.le, b1⟩
    rw [cells_cover hw hh] at this
    obtain ⟨i, hi, hm⟩ := mem_iUnion₂.mp this
    simp only [Finset.mem_product, Finset.mem_range] at hi
    obtain ⟨a, b, r⟩ := mem_cell hw hh hm
    exact ⟨i.2, i.1, hi.2, hi.1, a, b, r⟩
  obtain ⟨wxy, _, hp⟩ := hpdf x y a b hx hy ha0 ha1 hb0 hb1
  have hp' : Dist.pdf d2 q.1 q.2 = some (wxy / (Dist.rowSums ws w h).sum * w * h) := by rw [hqe]; exact hp
  have hneg : cosOf g (-envDir rot q.1 q.2) = cosOf g (envDir rot q.1 q.2) := by
    unfold cosOf
    have : V3.dot (-envDir rot q.1 q.2) g.n = -V3.dot (envDir rot q.1 q.2) g.n := by simp [V3.dot]; ring
    rw [this, abs_neg]
  by_cases hqB : q ∈ B
  · rw [indicator_of_mem hqB, hG, indicator_of_mem (show -envDir rot q.1 q.2 ∈ A from hqB.1)]
    show dens (Dist.pdf d2 q.1 q.2) = _ * (_ * dens (envPdfDirect d2 rot g (makeInfinite (-envDir rot q.1 q.2) junk junk)))
    rw [hval q a0 a1 b0 b1 _ hp', hp', hneg]
    show ENNReal.ofReal _ = ENNReal.ofReal _ * (ENNReal.ofReal _ * ENNReal.ofReal _)
    have hcm := convert_mul (p := wxy / (Dist.rowSums ws w h).sum * w * h / (2 * π * π * Real.sin (π * q.2))) g (-envDir rot q.1 q.2) (by
      have := (hcz _).mp hqB.2.2
      rw [V3.dot_comm g.n] at this
      have e : V3.dot (-envDir rot q.1 q.2) g.n = -V3.dot (envDir rot q.1 q.2) g.n := by simp [V3.dot]; ring
      rw [e]
      simpa using this)
    rw [neg_neg, hneg] at hcm
    rw [← ENNReal.ofReal_mul (cosOf_nonneg _ _), hcm, ← ENNReal.ofReal_mul (by positivity)]
    congr 1
    field_simp
  · rw [indicator_of_notMem hqB]
    by_cases hA' : -envDir rot q.1 q.2 ∈ A
    · have hc : cosOf g (envDir rot q.1 q.2) = 0 := by
        by_contra hc; exact hqB ⟨hA', b0, hc⟩
      rw [hG, indicator_of_mem hA', hneg, hc]
      simp
    · rw [hG, indicator_of_notMem hA', mul_zero]

example : ∃ d2 : Dist.Dist2 ℝ, Dist.init Dist.fresh [1, 2, 3, 4] 2 2 = some d2 := by
  obtain ⟨d, h, _⟩ := C80_env_direct_partial (fun _ => false) 0 (fun _ _ => 0) [1, 2, 3, 4] 2 2 (by norm_num) (by norm_num) rfl (by intro x hx; fin_cases hx <;> norm_num)
    (by intro i hi; interval_cases i <;> norm_num [Dist.rowOf]) 1 0 1 ⟨0, 0, 0, 0⟩ exGeom 0
  exact ⟨d, h⟩

end LM.Solid
