import Verif.Props.C81_Core
import Verif.Props.C80_EnvLight
/-
  C81: light, phase function and camera samples give unbiased estimates.
-/
namespace LM.Solid
open MeasureTheory LM LM.Surface LM.Material LM.Light LM.Volume LM.MathF Set
open scoped ENNReal Real

/-- What is kept of a sampled ray, with its weight. -/
def keyW {α : Type} (key : Geom → V3 ℝ → α) : Res → Option (α × V3 ℝ)
  | .ok g wo C => some (key g wo, C)
  | _ => none

theorem worthRay_of {U α : Type} [MeasurableSpace U] [MeasurableSpace α] [MeasurableSpace.CountablyGenerated α] [Nonempty α] {μ : Measure U} {S : U → Res} {key : Geom → V3 ℝ → α} {σ : Measure α} {p : α → Option ℝ}
    {f : α → Option (V3 ℝ)} (h : HasDensityO μ (fun u => (keyW key (S u)).map (·.1)) σ p) (hf : ∀ i, AEMeasurable (fun a => value i (f a)) σ)
    (hw : ∀ᵐ u ∂μ, S u ≠ .undef ∧ S u ≠ .unsupported ∧ ∀ gL wo C, S u = .ok gL wo C → ∃ P F, p (key gL wo) = some P ∧ f (key gL wo) = some F ∧ 0 < P ∧ P • C = F)
    (hs : ∀ᵐ a ∂σ, ∃ P F, p a = some P ∧ f a = some F ∧ 0 ≤ P ∧ (P = 0 → F = 0)) (i : Fin 3) (L : α → ℝ≥0∞) (hL : Measurable L) :
    ∫⁻ u, worthRay i (fun gL wo => L (key gL wo)) (S u) ∂μ = ∫⁻ a, value i (f a) * L a ∂σ := by
  rw [← unbiasedO_of h hf (hw.mono fun u hu a C e => ?_) hs i L hL]
  · refine lintegral_congr_ae (hw.mono fun u hu => ?_)
    beta_reduce
    cases e : S u with
    | ok g wo C => rfl
    | fail => rfl
    | undef => exact absurd e hu.1
    | unsupported => exact absurd e hu.2.1
  · cases e' : S u with
    | ok g wo D =>
      simp only [e', keyW] at e
      injection e with e; injection e with e1 e2
      subst e1 e2
      exact hu.2.2 _ _ _ e'
    | fail => simp only [e', keyW] at e; cases e
    | undef => simp only [e', keyW] at e; cases e
    | unsupported => simp only [e', keyW] at e; cases e

theorem keyW_dir (r : Res) : (keyW (fun _ wo => wo) r).map (·.1) = resDir r := by cases r <;> rfl

theorem value_const {α : Type} [MeasurableSpace α] {σ : Measure α} (v : V3 ℝ) (i : Fin 3) : AEMeasurable (fun _ : α => value i (some v)) σ := aemeasurable_const

/-! ### Environment lights -/

/-- C81. Light sampled towards a point g from a constant environment light: in expectation the integral of its radiance, times whatever the receiving side does with it, over the solid angle at g. -/
theorem C81_envconst_direct (sgn : V3 ℝ → Bool) (junk Le c : V3 ℝ) (r : ℝ) (hr : 0 < r) (M : Aff ℝ) (g : Geom) (hg : g.degenerated = true ∨ g.n ≠ 0) (x y z : ℝ) (i : Fin 3) (h : V3 ℝ → ℝ≥0∞) (hh : Measurable h) :
    let L := envconst sgn junk Le c r
    ∫⁻ q, worthRay i (fun _ wo => h wo) (L.sampleDirect ⟨x, y, z, q.1, q.2⟩ g M) ∂uniform2 = ∫⁻ wo, value i (some (L.eval (makeInfinite wo junk junk) wo false)) * h wo ∂solidAngleAt g := by
  intro L
  refine worthRay_of (key := fun _ wo => wo) (p := fun wo => L.pdfDirect g (makeInfinite wo junk junk) M wo false) (f := fun wo => some (L.eval (makeInfinite wo junk junk) wo false)) ?_ (fun i => value_const Le i) ?_ ?_ i h hh
  · simp_rw [keyW_dir]; exact C80_envconst_direct sgn junk Le c r M g hg x y z
  · refine Filter.Eventually.of_forall fun q => ?_
    have hs : L.sampleDirect ⟨x, y, z, q.1, q.2⟩ g M = rayOrFail (makeInfinite (sampleUniformSphere q.1 q.2) junk junk) (sampleUniformSphere q.1 q.2) Le (some (convertSAtoProjSA pdfSphere g (-(sampleUniformSphere q.1 q.2)))) := rfl
    rw [hs]
    have hnn := convert_nonneg pdfSphere pdfSphere_pos.le g (-(sampleUniformSphere q.1 q.2))
    rcases hnn.eq_or_lt with h0 | h0
    · rw [← h0, rayOrFail_zero]
      exact ⟨by simp, by simp, fun _ _ _ e => by cases e⟩
    · obtain ⟨C, e, hc⟩ := rayOrFail_pos (makeInfinite (sampleUniformSphere q.1 q.2) junk junk) (sampleUniformSphere q.1 q.2) Le _ h0
      rw [e]
      refine ⟨by simp, by simp, fun gL wo C' e' => ?_⟩
      cases e'
      exact ⟨_, _, rfl, rfl, h0, hc⟩
  · have hgr : ∀ᵐ d ∂solidAngle, g.degenerated = true ∨ V3.dot d g.n ≠ 0 := by
      rcases hg with h | h
      · exact Filter.Eventually.of_forall fun _ => Or.inl h
      · exact (grazing_null h).mono fun _ h => Or.inr h
    have hac : solidAngleAt g ≪ solidAngle := by rw [solidAngleAt_eq]; exact withDensity_absolutelyContinuous _ _
    refine Filter.Eventually.mono (hac.ae_le hgr) fun d hd => ?_
    have := convert_pos pdfSphere pdfSphere_pos g (-d) (by rw [V3.dot_neg_right, V3.dot_comm]; simpa using hd)
    exact ⟨_, _, rfl, rfl, this.le, fun e => absurd e this.ne'⟩

example (junk : V3 ℝ) (M : Aff ℝ) := C81_envconst_direct (fun _ => false) junk (V3.all 1) 0 1 one_pos M exGeom (Or.inr (by intro h; have := congrArg V3.z h; simp [exGeom] at this)) 0 0 0 0 (fun _ => 1) measurable_const

/-! ### Phase functions -/

theorem phase_of {ph : Phase} {wi : V3 ℝ} (hd : PhaseDensity ph wi) (he : PhaseEst ph) (hw : V3.dot wi wi = 1) (F : V3 ℝ → V3 ℝ) (hF : Measurable F)
    (hv : ∀ d, V3.dot d d = 1 → ph.eval wi d = some (F d)) (hc : ∀ d, V3.dot d d = 1 → ∃ P, ph.pdfDirection wi d = some P ∧ 0 < P) : PhaseUnbiased ph wi := by
  refine unbiased_of hd (fun i => ⟨_, measurable_value hF i, solidAngle_unit.mono fun d hu => by beta_reduce; rw [hv d hu]⟩) (uniform2_ae.mono fun q hq => ?_) (solidAngle_unit.mono fun d hu => ?_)
  · obtain ⟨wo, C, P, G, e, hu, ep, ev, h0, hw⟩ := he q.1 q.2 wi hq.1.1 hq.1.2 hq.2.1 hq.2.2 hw
    rw [e]
    refine ⟨by simp, fun wo' C' e' => ?_⟩
    cases e'
    exact ⟨P, G, ep, ev, h0, hw⟩
  · obtain ⟨P, e, h0⟩ := hc d hu
    exact ⟨P, F d, e, hv d hu, h0.le, fun h => absurd h h0.ne'⟩

/-- C81. Isotropic scattering. -/
theorem C81_isotropic (wi : V3 ℝ) (hw : V3.dot wi wi = 1) : PhaseUnbiased isotropic wi := by
  have hp := Real.pi_pos
  exact phase_of (C80_isotropic wi) (C59_weights (fun _ => false) 0 (by simp)).2 hw (fun _ => V3.all (1 / (4 * π))) measurable_const (fun d _ => rfl) (fun d _ => ⟨_, rfl, by positivity⟩)

theorem dot_range {a b : V3 ℝ} (ha : V3.dot a a = 1) (hb : V3.dot b b = 1) : -1 ≤ V3.dot a b ∧ V3.dot a b ≤ 1 := by
  have h1 := dot_self_nonneg (a + b)
  have h2 := dot_self_nonneg (a - b)
  have e1 : V3.dot (a + b) (a + b) = V3.dot a a + V3.dot b b + 2 * V3.dot a b := by simp [V3.dot]; ring
  have e2 : V3.dot (a - b) (a - b) = V3.dot a a + V3.dot b b - 2 * V3.dot a b := by simp [V3.dot]; ring
  constructor <;> linarith

theorem hg_of (sgn : V3 ℝ → Bool) (g : ℝ) (wi : V3 ℝ) (hg : |g| < 1) (hw : V3.dot wi wi = 1) (hd : PhaseDensity (Volume.hg sgn g) wi) : PhaseUnbiased (Volume.hg sgn g) wi := by
  have hw' : V3.dot (-wi) (-wi) = 1 := by rw [← hw]; simp [V3.dot]
  have hp : ∀ d, V3.dot d d = 1 → (Volume.hg sgn g).pdfDirection wi d = some (hgDensity g (V3.dot d (-wi))) ∧ 0 < hgDensity g (V3.dot d (-wi)) := fun d hu => by
    have hr := dot_range hu hw'
    refine ⟨?_, hgDensity_pos g _ hg hr.1 hr.2⟩
    rw [V3.dot_comm] at hr ⊢
    exact hgPdf_eq g wi d hg hr.1 hr.2
  refine phase_of hd (C59_weights sgn g hg).1 hw (fun d => V3.all (hgDensity g (V3.dot d (-wi)))) ?_ (fun d hu => ?_) (fun d hu => ⟨_, hp d hu⟩)
  · have : Measurable fun d : V3 ℝ => hgDensity g (V3.dot d (-wi)) := (measurable_hgDensity g).comp (measurable_dotc _)
    exact measurable_mk this this this
  · have e := (hp d hu).1
    show ((Volume.hg sgn g).pdfDirection wi d).map _ = _
    rw [e]
    rfl

/-- C81 (partial). Henyey-Greenstein scattering, with |g| ≥ Eps or g = 0. Missing: 0 < |g| < Eps, where the density is wrong (C80_negation_hg_small). -/
theorem C81_hg_partial (sgn : V3 ℝ → Bool) (g : ℝ) (wi : V3 ℝ) (hg : |g| < 1) (hE : Eps ≤ |g| ∨ g = 0) (hw : V3.dot wi wi = 1) : PhaseUnbiased (Volume.hg sgn g) wi := by
  rcases hE with hE | rfl
  · exact hg_of sgn g wi hg hw (C80_hg_partial sgn g wi hg hE hw)
  · exact hg_of sgn 0 wi hg hw (C80_hg_zero sgn wi hw)

example : |(1 / 2 : ℝ)| < 1 ∧ Eps ≤ |(1 / 2 : ℝ)| ∧ V3.dot (⟨3/5, 0, 4/5⟩ : V3 ℝ) ⟨3/5, 0, 4/5⟩ = 1 := ⟨by norm_num [abs_of_pos], by unfold Eps; norm_num [abs_of_pos], by simp [V3.dot]; norm_num⟩

/-! ### Primary rays -/

/-- C81. Primary rays: averaged over the screen, whatever arrives along them; this is the integral of the camera's importance times what arrives, over solid angle. -/
theorem C81_camera (c : Camera) (junk : V3 ℝ) (h : c.Proper) (x y z : ℝ) (i : Fin 3) (L : V3 ℝ → ℝ≥0∞) (hL : Measurable L) :
    ∫⁻ q, worthRay i (fun _ wo => L wo) (camSampleRay c junk ⟨x, y, z, q.1, q.2⟩) ∂uniform2 = ∫⁻ d, value i (camEval c d) * L d ∂solidAngle := by
  have hJ : ∀ d r, rasterPosition c d = some r → ∃ P, camJ c d = some P ∧ 0 < P := by
    intro d r hr
    have hz : (toEye c d).z < 0 := by
      by_contra hc
      unfold rasterPosition at hr
      simp only [ge_iff_le, not_lt.mp hc, if_true] at hr
      cases hr
    obtain ⟨_, ht, ha⟩ := h
    have h1 : -(toEye c d).z ≠ 0 := by linarith
    have h2 : c.tf * c.tf * c.aspect * 4 ≠ 0 := by positivity
    refine ⟨1 / -(toEye c d).z * (1 / -(toEye c d).z) * (1 / -(toEye c d).z) / (c.tf * c.tf * c.aspect * 4), ?_, ?_⟩
    · simp only [camJ, divF, h1, h2, if_false, Option.bind_eq_bind, Option.bind_some]
    · have : 0 < -(toEye c d).z := by linarith
      positivity
  have hval : ∀ i d, value i (camEval c d) = dens (camPdfDirection c d) := by
    intro i d
    unfold camEval camPdfDirection
    cases hr : rasterPosition c d with
    | none => fin_cases i <;> simp [value, dens, chan, V3.all]
    | some r =>
      obtain ⟨P, e, _⟩ := hJ d r hr
      simp only [e, Option.map_some]
      fin_cases i <;> simp [value, dens, chan, V3.all]
  have hd := C80_camera c junk h x y z
  refine worthRay_of (key := fun _ wo => wo) (p := camPdfDirection c) (f := camEval c) (by simp_rw [keyW_dir]; exact hd) (fun i => by simp_rw [hval]; exact hd.1) (uniform2_ae.mono fun q hq => ?_) ?_ i L hL
  · obtain ⟨d, e, hu, ht⟩ := C47_primary c h q.1 q.2
    have hs : camSampleRay c junk ⟨x, y, z, q.1, q.2⟩ = .ok (makeDegenerated c.position junk) d (V3.all 1) := by simp only [camSampleRay, e]
    have hr := C47_raster c h d q.1 q.2 ht
    rw [if_pos ⟨⟨hq.1.1, hq.1.2.le⟩, hq.2.1, hq.2.2.le⟩] at hr
    obtain ⟨P, eP, h0⟩ := hJ d _ hr
    rw [hs]
    refine ⟨by simp, by simp, fun gL wo C e' => ?_⟩
    cases e'
    refine ⟨P, V3.all P, by simp only [camPdfDirection, hr, eP], by simp only [camEval, hr, eP, Option.map_some], h0, by ext <;> simp [V3.all]⟩
  · refine Filter.Eventually.of_forall fun d => ?_
    cases hr : rasterPosition c d with
    | none => exact ⟨0, V3.all 0, by simp only [camPdfDirection, hr], by simp only [camEval, hr], le_refl _, fun _ => by ext <;> simp [V3.all]⟩
    | some r =>
      obtain ⟨P, e, h0⟩ := hJ d r hr
      exact ⟨P, V3.all P, by simp only [camPdfDirection, hr, e], by simp only [camEval, hr, e, Option.map_some], h0.le, fun h => absurd h h0.ne'⟩

/-! ### Image-based environment lights -/

/-- The density reported at the direction of map coordinates q: that of the pixel of q, converted. -/
theorem envPdf_at {ws : List ℝ} {w h : Nat} (hw : 0 < w) (hh : 0 < h) (hnn : ∀ x ∈ ws, 0 ≤ x) (hrow : ∀ i < h, 0 < (Dist.rowOf ws w i).sum) {d2 : Dist.Dist2 ℝ}
    (hpdf : ∀ x y a b, x < w → y < h → 0 ≤ a → a < 1 → 0 ≤ b → b < 1 → ∃ wxy, ws[y * w + x]? = some wxy ∧ Dist.pdf d2 (((x : ℝ) + a) / w) (((y : ℝ) + b) / h) = some (wxy / (Dist.rowSums ws w h).sum * w * h))
    (rot : ℝ) (g : Geom) (junk : V3 ℝ) (q : ℝ × ℝ) (a0 : 0 ≤ q.1) (a1 : q.1 < 1) (b0 : 0 < q.2) (b1 : q.2 < 1) :
    ∃ (x y : Nat) (a b wxy k : ℝ), x < w ∧ y < h ∧ 0 ≤ a ∧ a < 1 ∧ 0 ≤ b ∧ b < 1 ∧ q = (((x : ℝ) + a) / w, ((y : ℝ) + b) / h) ∧ ws[y * w + x]? = some wxy ∧ 0 ≤ wxy ∧ 0 < k ∧
      envPdfDirect d2 rot g (makeInfinite (-envDir rot q.1 q.2) junk junk) = some (convertSAtoProjSA (wxy * k) g (envDir rot q.1 q.2)) := by
  have hpi := Real.pi_pos
  have hst : 0 < Real.sin (π * q.2) := Real.sin_pos_of_pos_of_lt_pi (mul_pos hpi b0) (by nlinarith)
  obtain ⟨x, y, hx, hy, a, b, ha0, ha1, hb0, hb1, hqe⟩ : ∃ x y : Nat, x < w ∧ y < h ∧ ∃ a b : ℝ, 0 ≤ a ∧ a < 1 ∧ 0 ≤ b ∧ b < 1 ∧ q = (((x : ℝ) + a) / w, ((y : ℝ) + b) / h) := by
    have : q ∈ Ico (0 : ℝ) 1 ×ˢ Ico (0 : ℝ) 1 := ⟨⟨a0, a1⟩, b0.le, b1⟩
    rw [cells_cover hw hh] at this
    obtain ⟨i, hi, hm⟩ := mem_iUnion₂.mp this
    simp only [Finset.mem_product, Finset.mem_range] at hi
    obtain ⟨a, b, r⟩ := mem_cell hw hh hm
    exact ⟨i.2, i.1, hi.2, hi.1, a, b, r⟩
  obtain ⟨wxy, hget, hp⟩ := hpdf x y a b hx hy ha0 ha1 hb0 hb1
  have hp' : Dist.pdf d2 q.1 q.2 = some (wxy / (Dist.rowSums ws w h).sum * w * h) := by rw [hqe]; exact hp
  have htot : 0 < (Dist.rowSums ws w h).sum := by
    have hl : (Dist.rowSums ws w h).length = h := by simp [Dist.rowSums]
    have hsums : ∀ s ∈ Dist.rowSums ws w h, 0 ≤ s := by
      intro s hm
      obtain ⟨i, hi, rfl⟩ := List.mem_map.mp hm
      exact (hrow i (List.mem_range.mp hi)).le
    have h0 : (Dist.rowSums ws w h)[0]'(by rw [hl]; exact hh) ≤ (Dist.rowSums ws w h).sum := List.single_le_sum hsums _ (List.getElem_mem _)
    have : (Dist.rowSums ws w h)[0]'(by rw [hl]; exact hh) = (Dist.rowOf ws w 0).sum := by simp [Dist.rowSums]
    rw [this] at h0
    linarith [hrow 0 hh]
  have hwp : (0:ℝ) < w := by exact_mod_cast hw
  have hhp : (0:ℝ) < h := by exact_mod_cast hh
  refine ⟨x, y, a, b, wxy, 1 / (Dist.rowSums ws w h).sum * w * h / (2 * π * π * Real.sin (π * q.2)), hx, hy, ha0, ha1, hb0, hb1, hqe, hget, hnn _ (List.mem_of_getElem? hget), by positivity, ?_⟩
  have hrt := C46_env_round_trip rot q.1 q.2 a0 a1 b0 b1
  have hsafe : safeSqrt (1 - (envDir rot q.1 q.2).y * (envDir rot q.1 q.2).y) = Real.sin (π * q.2) := by
    have : 1 - (envDir rot q.1 q.2).y * (envDir rot q.1 q.2).y = Real.sin (π * q.2) ^ 2 := by
      simp only [envDir]
      linear_combination -(Real.sin_sq_add_cos_sq (π * q.2))
    rw [this, safeSqrt_of_nonneg (by positivity), Real.sqrt_sq hst.le]
  unfold envPdfDirect
  simp only [makeInfinite, neg_neg, hrt, hsafe, hst.ne', if_false, hp', Option.map_some]
  congr 2
  ring

/-- Almost every direction is the direction of its map coordinates, which lie in the map. -/
theorem env_onto (rot : ℝ) : ∀ᵐ d ∂solidAngle, ∃ q : ℝ × ℝ, 0 ≤ q.1 ∧ q.1 < 1 ∧ 0 < q.2 ∧ q.2 < 1 ∧ envDir rot q.1 q.2 = d := by
  set good : Set (V3 ℝ) := {d | 0 ≤ (envCoords rot d).1} ∩ ({d | (envCoords rot d).1 < 1} ∩ ({d | 0 < (envCoords rot d).2} ∩ ({d | (envCoords rot d).2 < 1} ∩
    ({d | (envDir rot (envCoords rot d).1 (envCoords rot d).2).x = d.x} ∩ ({d | (envDir rot (envCoords rot d).1 (envCoords rot d).2).y = d.y} ∩ {d | (envDir rot (envCoords rot d).1 (envCoords rot d).2).z = d.z}))))) with hgood
  have hc := measurable_envCoords rot
  have hD : Measurable fun d : V3 ℝ => envDir rot (envCoords rot d).1 (envCoords rot d).2 := (measurable_envDir rot).comp hc
  have hm : MeasurableSet good :=
    (measurableSet_le measurable_const hc.fst).inter ((measurableSet_lt hc.fst measurable_const).inter ((measurableSet_lt measurable_const hc.snd).inter ((measurableSet_lt hc.snd measurable_const).inter
      ((measurableSet_eq_fun (measurable_x.comp hD) measurable_x).inter ((measurableSet_eq_fun (measurable_y.comp hD) measurable_y).inter (measurableSet_eq_fun (measurable_z.comp hD) measurable_z))))))
  have h0 : solidAngle goodᶜ = 0 := by
    rw [← lintegral_indicator_one hm.compl, env_cov rot (measurable_one.indicator hm.compl), ← lintegral_zero (μ := uniform2)]
    have hne : ∀ᵐ q ∂uniform2, q.2 ≠ 0 := by
      have h1 : ∀ᵐ x ∂uniform1, x ≠ 0 := by
        unfold uniform1
        refine ae_restrict_of_ae ?_
        rw [ae_iff]; simp
      have t2 : Measure.QuasiMeasurePreserving (Prod.snd : ℝ × ℝ → ℝ) uniform2 uniform1 := by rw [uniform2_prod]; exact Measure.quasiMeasurePreserving_snd
      exact t2.ae h1
    refine lintegral_congr_ae ?_
    filter_upwards [uniform2_ae, hne] with q hq hq0
    have hq2 : 0 < q.2 := lt_of_le_of_ne hq.2.1 (Ne.symm hq0)
    have hrt := C46_env_round_trip rot q.1 q.2 hq.1.1 hq.1.2 hq2 hq.2.2
    have : envDir rot q.1 q.2 ∈ good := by
      refine ⟨?_, ?_, ?_, ?_, ?_, ?_, ?_⟩ <;> simp only [mem_ofPred_eq, hrt]
      · exact hq.1.1
      · exact hq.1.2
      · exact hq2
      · exact hq.2.2
    rw [indicator_of_notMem (notMem_compl_iff.mpr this), mul_zero]
  have : ∀ᵐ d ∂solidAngle, d ∈ good := by rw [ae_iff]; exact h0
  refine this.mono ?_
  rintro d ⟨h1, h2, h3, h4, h5, h6, h7⟩
  exact ⟨envCoords rot d, h1, h2, h3, h4, V3.ext h5 h6 h7⟩

theorem ae_neg {P : V3 ℝ → Prop} (h : ∀ᵐ d ∂solidAngle, P d) : ∀ᵐ d ∂solidAngle, P (-d) := by
  have hmp : MeasurePreserving (fun d : V3 ℝ => -d) solidAngle solidAngle := by
    refine ⟨measurable_neg3, Measure.ext fun A hA => ?_⟩
    rw [Measure.map_apply measurable_neg3 hA, ← lintegral_indicator_one hA, ← lintegral_neg (measurable_one.indicator hA), ← lintegral_indicator_one (measurable_neg3 hA)]
    rfl
  exact hmp.quasiMeasurePreserving.ae h

/-- C81 (partial). Light sampled towards a point g from an image-based environment light: in expectation the integral of the map, times whatever the receiving side does with it, over the solid angle at g;
    if the weights are non-negative, no row is zero, and a pixel of weight 0 is black. Missing: the weights the light computes can be negative (C46_negation_env_weights). -/
theorem C81_env_direct_partial (sgn : V3 ℝ → Bool) (junk : V3 ℝ) (tex : ℝ → ℝ → V3 ℝ) (htex : Measurable fun q : ℝ × ℝ => tex q.1 q.2) (ws : List ℝ) (w h : Nat) (hw : 0 < w) (hh : 0 < h) (hlen : ws.length = w * h)
    (hnn : ∀ x ∈ ws, 0 ≤ x) (hrow : ∀ i < h, 0 < (Dist.rowOf ws w i).sum)
    (hblack : ∀ x y : Nat, x < w → y < h → ws[y * w + x]? = some 0 → ∀ a b : ℝ, 0 ≤ a → a < 1 → 0 ≤ b → b < 1 → tex ((x + a) / w) ((y + b) / h) = 0)
    (rot : ℝ) (c : V3 ℝ) (r : ℝ) (M : Aff ℝ) (g : Geom) (hg : g.degenerated = true ∨ g.n ≠ 0) (z : ℝ) (i : Fin 3) (F : V3 ℝ → ℝ≥0∞) (hF : Measurable F) :
    ∃ d2, Dist.init Dist.fresh ws w h = some d2 ∧ let L := env sgn junk tex d2 rot c r
      ∫⁻ u, worthRay i (fun _ wo => F wo) (L.sampleDirect ⟨u.2.1, u.2.2, z, u.1.1, u.1.2⟩ g M) ∂uniform4 = ∫⁻ wo, value i (some (L.eval (makeInfinite wo junk junk) wo false)) * F wo ∂solidAngleAt g := by
  obtain ⟨d2, hd, hden⟩ := C80_env_direct_partial sgn junk tex ws w h hw hh hlen hnn hrow rot c r M g z
  obtain ⟨d2', hd', hpdf, hsam⟩ := Dist.C29_sample_partial ws w h hw hh hlen hnn hrow
  rw [hd] at hd'; cases hd'
  refine ⟨d2, hd, ?_⟩
  intro L
  have hpi := Real.pi_pos
  have hev : Measurable fun wo : V3 ℝ => L.eval (makeInfinite wo junk junk) wo false := by
    show Measurable fun wo : V3 ℝ => tex (envCoords rot (-wo)).1 (envCoords rot (-wo)).2
    exact htex.comp ((measurable_envCoords rot).comp measurable_neg3)
  refine worthRay_of (key := fun _ wo => wo) (p := fun wo => L.pdfDirect g (makeInfinite wo junk junk) M wo false) (f := fun wo => some (L.eval (makeInfinite wo junk junk) wo false)) (by simp_rw [keyW_dir]; exact hden)
    (fun i => (measurable_value hev i).aemeasurable) ?_ ?_ i F hF
  · have h2 : ∀ᵐ u ∂uniform4, ((0 ≤ u.1.1 ∧ u.1.1 < 1) ∧ (0 ≤ u.1.2 ∧ u.1.2 < 1)) ∧ ((0 ≤ u.2.1 ∧ u.2.1 < 1) ∧ (0 ≤ u.2.2 ∧ u.2.2 < 1)) := by
      have t1 : Measure.QuasiMeasurePreserving (Prod.fst : (ℝ × ℝ) × (ℝ × ℝ) → ℝ × ℝ) uniform4 uniform2 := Measure.quasiMeasurePreserving_fst
      have t2 : Measure.QuasiMeasurePreserving (Prod.snd : (ℝ × ℝ) × (ℝ × ℝ) → ℝ × ℝ) uniform4 uniform2 := Measure.quasiMeasurePreserving_snd
      exact (t1.ae uniform2_ae).and (t2.ae uniform2_ae)
    refine h2.mono fun u hu => ?_
    obtain ⟨⟨⟨a0, a1⟩, b0, b1⟩, ⟨c0, c1⟩, d0, d1⟩ := hu
    obtain ⟨x, y, wxy, hx, hy, hget, hpos, hs, hu0, hu1, hv0, hv1⟩ := hsam u.1.1 u.1.2 u.2.1 u.2.2 a0 a1 b0 b1 c0 c1 d0 d1
    obtain ⟨wxy', hget', hp⟩ := hpdf x y u.2.1 u.2.2 hx hy c0 c1 d0 d1
    rw [hget] at hget'; cases hget'
    set q : ℝ × ℝ := (((x : ℝ) + u.2.1) / w, ((y : ℝ) + u.2.2) / h) with hq
    have hsd : L.sampleDirect ⟨u.2.1, u.2.2, z, u.1.1, u.1.2⟩ g M = rayOrFail (makeInfinite (-envDir rot q.1 q.2) junk junk) (-envDir rot q.1 q.2) (L.eval (makeInfinite (-envDir rot q.1 q.2) junk junk) (-envDir rot q.1 q.2) false)
        (L.pdfDirect g (makeInfinite (-envDir rot q.1 q.2) junk junk) M (-envDir rot q.1 q.2) false) := by
      simp only [L, env, hs]
    rw [hsd]
    obtain ⟨P, hP, h0⟩ : ∃ P, L.pdfDirect g (makeInfinite (-envDir rot q.1 q.2) junk junk) M (-envDir rot q.1 q.2) false = some P ∧ 0 ≤ P := by
      show ∃ P, envPdfDirect d2 rot g (makeInfinite (-envDir rot q.1 q.2) junk junk) = some P ∧ 0 ≤ P
      rcases hv0.eq_or_lt with hv | hv
      · have hy0 : safeSqrt (1 - (envDir rot q.1 q.2).y * (envDir rot q.1 q.2).y) = 0 := by
          have : q.2 = 0 := hv.symm
          simp only [envDir, this, mul_zero, Real.cos_zero]
          simp [safeSqrt]
        refine ⟨0, ?_, le_refl _⟩
        unfold envPdfDirect
        simp only [makeInfinite, neg_neg, hy0, if_true]
      · obtain ⟨x', y', a', b', w', k, _, _, _, _, _, _, _, _, hw0, hk, e⟩ := envPdf_at hw hh hnn hrow hpdf rot g junk q hu0 hu1 hv hv1
        exact ⟨_, e, convert_nonneg _ (mul_nonneg hw0 hk.le) _ _⟩
    rcases h0.eq_or_lt with h0 | h0
    · rw [hP, ← h0, rayOrFail_zero]
      exact ⟨by simp, by simp, fun _ _ _ e => by cases e⟩
    · obtain ⟨C, e, hc⟩ := rayOrFail_pos (makeInfinite (-envDir rot q.1 q.2) junk junk) (-envDir rot q.1 q.2) (L.eval (makeInfinite (-envDir rot q.1 q.2) junk junk) (-envDir rot q.1 q.2) false) _ h0
      rw [hP, e]
      refine ⟨by simp, by simp, fun gL wo C' e' => ?_⟩
      cases e'
      exact ⟨_, _, hP, rfl, h0, hc⟩
  · have hgr : ∀ᵐ d ∂solidAngle, g.degenerated = true ∨ V3.dot d g.n ≠ 0 := by
      rcases hg with h | h
      · exact Filter.Eventually.of_forall fun _ => Or.inl h
      · exact (grazing_null h).mono fun _ h => Or.inr h
    have hac : solidAngleAt g ≪ solidAngle := by rw [solidAngleAt_eq]; exact withDensity_absolutelyContinuous _ _
    refine Filter.Eventually.mono (hac.ae_le ((ae_neg (env_onto rot)).and hgr)) ?_
    rintro d ⟨⟨q, a0, a1, b0, b1, hq⟩, hgd⟩
    have hdq : d = -envDir rot q.1 q.2 := by rw [hq, neg_neg]
    obtain ⟨x, y, a, b, wxy, k, hx, hy, ha0, ha1, hb0, hb1, hqe, hget, hw0, hk, e⟩ := envPdf_at hw hh hnn hrow hpdf rot g junk q a0 a1 b0 b1
    refine ⟨convertSAtoProjSA (wxy * k) g (envDir rot q.1 q.2), _, by rw [hdq]; exact e, rfl, convert_nonneg _ (mul_nonneg hw0 hk.le) _ _, fun hz => ?_⟩
    have hwz : wxy = 0 := by
      by_contra hne
      have hwp : 0 < wxy := lt_of_le_of_ne hw0 (Ne.symm hne)
      refine (convert_pos (wxy * k) (mul_pos hwp hk) g (envDir rot q.1 q.2) ?_).ne' hz
      rcases hgd with h | h
      · exact Or.inl h
      · right
        rw [hdq] at h
        rw [V3.dot_comm]
        intro h'
        apply h
        have : V3.dot (-envDir rot q.1 q.2) g.n = -V3.dot (envDir rot q.1 q.2) g.n := by simp [V3.dot]; ring
        rw [this, h', neg_zero]
    show tex (envCoords rot (-d)).1 (envCoords rot (-d)).2 = 0
    rw [← hq, C46_env_round_trip rot q.1 q.2 a0 a1 b0 b1, hqe]
    rw [hwz] at hget
    exact hblack x y hx hy hget a b ha0 ha1 hb0 hb1

/-- The hypotheses hold for a map with two rows of one white and one black pixel. -/
example : ∀ x y : Nat, x < 2 → y < 2 → ([1, 0, 1, 0] : List ℝ)[y * 2 + x]? = some 0 → ∀ a b : ℝ, 0 ≤ a → a < 1 → 0 ≤ b → b < 1 →
    (fun u _ : ℝ => if u < 1 / 2 then (⟨1, 1, 1⟩ : V3 ℝ) else 0) ((x + a) / (2 : ℕ)) ((y + b) / (2 : ℕ)) = 0 := by
  intro x y hx hy hg a b ha _ _ _
  have hx1 : x = 1 := by
    interval_cases x <;> interval_cases y <;> simp_all
  subst hx1
  beta_reduce
  rw [if_neg]
  push_cast
  linarith

end LM.Solid
