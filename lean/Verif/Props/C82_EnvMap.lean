import Verif.Props.C82_Sky
import Verif.Props.C81_Light
/-
  C82: environment maps meet the requirements on lights.
-/
namespace LM.Transport
open MeasureTheory LM LM.Surface LM.Material LM.Light LM.MathF LM.Path LM.Render LM.Solid
open scoped ENNReal

/-- The contribution of a sampled ray is a measurable function of the random numbers, up to a null set. -/
theorem worthRay_aemeasurable {U α : Type} [MeasurableSpace U] [MeasurableSpace α] [MeasurableSpace.CountablyGenerated α] [Nonempty α] {μ : Measure U} {S : U → Res} {key : Geom → V3 ℝ → α} {σ : Measure α} {p : α → Option ℝ}
    {f : α → Option (V3 ℝ)} (h : HasDensityO μ (fun u => (keyW key (S u)).map (·.1)) σ p) (hf : ∀ i, AEMeasurable (fun a => Solid.value i (f a)) σ)
    (hw : ∀ᵐ u ∂μ, S u ≠ .undef ∧ S u ≠ .unsupported ∧ ∀ gL wo C, S u = .ok gL wo C → ∃ P F, p (key gL wo) = some P ∧ f (key gL wo) = some F ∧ 0 < P ∧ P • C = F)
    (i : Fin 3) (L : α → ℝ≥0∞) (hL : Measurable L) : AEMeasurable (fun u => worthRay i (fun gL wo => L (key gL wo)) (S u)) μ := by
  obtain ⟨hE, hae, hmap⟩ := pick_law h
  set E := {u | ((keyW key (S u)).map (·.1)).isSome} with hEdef
  set H : α → ℝ≥0∞ := fun a => Solid.value i (f a) / dens (p a) * L a with hH
  have hHm : AEMeasurable H (σ.withDensity fun a => dens (p a)) := (((hf i).div h.1).mul hL.aemeasurable).mono_ac (withDensity_absolutelyContinuous _ _)
  have hcomp : AEMeasurable (fun u => H (pick (fun u => (keyW key (S u)).map (·.1)) u)) (μ.restrict E) := by
    have : AEMeasurable H ((μ.restrict E).map (pick fun u => (keyW key (S u)).map (·.1))) := by rw [hmap]; exact hHm
    exact this.comp_aemeasurable hae
  refine ((aemeasurable_indicator_iff₀ hE).mpr hcomp).congr (hw.mono fun u hu => ?_)
  by_cases hm : u ∈ E
  · rw [Set.indicator_of_mem hm]
    cases e : S u with
    | ok g wo C =>
      obtain ⟨P, F, hP, hF, h0, h1⟩ := hu.2.2 g wo C e
      simp only [pick, e, keyW, Option.map_some, hH, hP, hF, dens, Solid.value, worthRay]
      congr 1
      rw [← h1, ← ENNReal.ofReal_div_of_pos h0]
      congr 1
      fin_cases i <;> simp [chan] <;> field_simp
    | fail => simp [hEdef, e, keyW] at hm
    | undef => simp [hEdef, e, keyW] at hm
    | unsupported => simp [hEdef, e, keyW] at hm
  · rw [Set.indicator_of_notMem hm]
    cases e : S u with
    | ok g wo C => simp [hEdef, e, keyW] at hm
    | fail => simp [e, worthRay]
    | undef => exact absurd e hu.1
    | unsupported => exact absurd e hu.2.1

/-- Four numbers, of which two are the first of three. -/
theorem lintegral_four {f : (ℝ × ℝ) × (ℝ × ℝ) → ℝ≥0∞} (hf : AEMeasurable f uniform4) : ∫⁻ p, ∫⁻ q, f (q, (p.1, p.2.1)) ∂uniform2 ∂uniform3 = ∫⁻ u, f u ∂uniform4 := by
  unfold uniform4 at hf ⊢
  have h1 : AEMeasurable (fun y => ∫⁻ q, f (q, y) ∂uniform2) uniform2 := hf.lintegral_prod_left'
  rw [lintegral_prod_symm f hf]
  have h2 : AEMeasurable (fun y => ∫⁻ q, f (q, y) ∂uniform2) (uniform3.map fun p => (p.1, p.2.1)) := by rw [first2.map_eq]; exact h1
  have h3 := lintegral_map' h2 first2.measurable.aemeasurable
  rw [first2.map_eq] at h3
  exact h3.symm

/-- What is required of an environment map: a measurable texture without negative values, and non-negative weights, no row of which is 0, such that pixels of weight 0 are black. -/
structure MapOk (tex : ℝ → ℝ → V3 ℝ) (ws : List ℝ) (w h : Nat) : Prop where
  texture : Measurable fun q : ℝ × ℝ => tex q.1 q.2
  nonneg : ∀ a b, NonNeg (tex a b)
  width : 0 < w
  height : 0 < h
  len : ws.length = w * h
  weights : ∀ x ∈ ws, 0 ≤ x
  rows : ∀ i < h, 0 < (Dist.rowOf ws w i).sum
  black : ∀ x y : Nat, x < w → y < h → ws[y * w + x]? = some 0 → ∀ a b : ℝ, 0 ≤ a → a < 1 → 0 ≤ b → b < 1 → tex ((x + a) / w) ((y + b) / h) = 0

theorem MapOk.total {tex ws w h} (m : MapOk tex ws w h) : 0 < (Dist.rowSums ws w h).sum := by
  have hl : (Dist.rowSums ws w h).length = h := by simp [Dist.rowSums]
  have hsums : ∀ s ∈ Dist.rowSums ws w h, 0 ≤ s := by
    intro s hm
    obtain ⟨i, hi, rfl⟩ := List.mem_map.mp hm
    exact (m.rows i (List.mem_range.mp hi)).le
  have h0 : (Dist.rowSums ws w h)[0]'(by rw [hl]; exact m.height) ≤ (Dist.rowSums ws w h).sum := List.single_le_sum hsums _ (List.getElem_mem _)
  have : (Dist.rowSums ws w h)[0]'(by rw [hl]; exact m.height) = (Dist.rowOf ws w 0).sum := by simp [Dist.rowSums]
  rw [this] at h0
  linarith [m.rows 0 m.height]

/-- The reported density is defined and not negative, in every direction. -/
theorem envPdf_some {tex ws w h} (m : MapOk tex ws w h) {d2 : Dist.Dist2 ℝ} (hd : Dist.init Dist.fresh ws w h = some d2) (rot : ℝ) (g gL : Geom) : ∃ P, envPdfDirect d2 rot g gL = some P ∧ 0 ≤ P := by
  obtain ⟨d2', hd', hpdf, _⟩ := Dist.C29_sample_partial ws w h m.width m.height m.len m.weights m.rows
  rw [hd] at hd'; cases hd'
  have hpi := Real.pi_pos
  unfold envPdfDirect
  by_cases hst : safeSqrt (1 - (-gL.wo).y * (-gL.wo).y) = 0
  · exact ⟨0, by simp only [hst, if_true], le_refl _⟩
  have hs0 : 0 < safeSqrt (1 - (-gL.wo).y * (-gL.wo).y) := lt_of_le_of_ne (Real.sqrt_nonneg _) (Ne.symm hst)
  have hy : 0 < 1 - (-gL.wo).y * (-gL.wo).y := by
    unfold safeSqrt at hs0
    have := Real.sqrt_pos.mp hs0
    rcases lt_max_iff.mp this with h | h
    · exact absurd h (lt_irrefl _)
    · exact h
  set d := -gL.wo with hdd
  set q := envCoords rot d with hq
  have hq1 : 0 ≤ q.1 ∧ q.1 < 1 := by
    simp only [hq, envCoords, frac]
    exact ⟨Int.fract_nonneg _, Int.fract_lt_one _⟩
  have hq2 : 0 ≤ q.2 ∧ q.2 < 1 := by
    simp only [hq, envCoords]
    refine ⟨div_nonneg (Real.arccos_nonneg _) hpi.le, (div_lt_one hpi).mpr ?_⟩
    refine lt_of_le_of_ne (Real.arccos_le_pi _) fun e => ?_
    have := Real.arccos_eq_pi.mp e
    nlinarith
  obtain ⟨x, y, hx, hy', a, b, ha0, ha1, hb0, hb1, hqe⟩ : ∃ x y : Nat, x < w ∧ y < h ∧ ∃ a b : ℝ, 0 ≤ a ∧ a < 1 ∧ 0 ≤ b ∧ b < 1 ∧ q = (((x : ℝ) + a) / w, ((y : ℝ) + b) / h) := by
    have : q ∈ Set.Ico (0 : ℝ) 1 ×ˢ Set.Ico (0 : ℝ) 1 := ⟨hq1, hq2⟩
    rw [cells_cover m.width m.height] at this
    obtain ⟨i, hi, hm⟩ := Set.mem_iUnion₂.mp this
    simp only [Finset.mem_product, Finset.mem_range] at hi
    obtain ⟨a, b, r⟩ := mem_cell m.width m.height hm
    exact ⟨i.2, i.1, hi.2, hi.1, a, b, r⟩
  obtain ⟨wxy, hget, hp⟩ := hpdf x y a b hx hy' ha0 ha1 hb0 hb1
  have hp' : Dist.pdf d2 q.1 q.2 = some (wxy / (Dist.rowSums ws w h).sum * w * h) := by rw [hqe]; exact hp
  have hw0 := m.weights _ (List.mem_of_getElem? hget)
  have htot := m.total
  refine ⟨convertSAtoProjSA (wxy / (Dist.rowSums ws w h).sum * w * h / (2 * Real.pi * Real.pi * safeSqrt (1 - d.y * d.y))) g d, ?_, convert_nonneg _ ?_ _ _⟩
  · simp only [hst, if_false]
    rw [hp']
    rfl
  · positivity

/-- What a sample of an environment map is. -/
theorem env_sampled {tex ws w h} (m : MapOk tex ws w h) {d2 : Dist.Dist2 ℝ} (hd : Dist.init Dist.fresh ws w h = some d2) (sgn : V3 ℝ → Bool) (junk : V3 ℝ) (rot : ℝ) (c : V3 ℝ) (r : ℝ) (M : Aff ℝ) (g : Geom) (ud : ℝ × ℝ) (up : ℝ × ℝ) (z : ℝ)
    (hud : (0 ≤ ud.1 ∧ ud.1 < 1) ∧ (0 ≤ ud.2 ∧ ud.2 < 1)) (hup : (0 ≤ up.1 ∧ up.1 < 1) ∧ (0 ≤ up.2 ∧ up.2 < 1)) : let L := env sgn junk tex d2 rot c r
    L.sampleDirect ⟨up.1, up.2, z, ud.1, ud.2⟩ g M ≠ .undef ∧ L.sampleDirect ⟨up.1, up.2, z, ud.1, ud.2⟩ g M ≠ .unsupported ∧
    ∀ gL wo C, L.sampleDirect ⟨up.1, up.2, z, ud.1, ud.2⟩ g M = .ok gL wo C → gL = makeInfinite wo junk junk ∧ V3.dot wo wo = 1 ∧
      ∃ P, envPdfDirect d2 rot g (makeInfinite wo junk junk) = some P ∧ 0 < P ∧ P • C = L.eval (makeInfinite wo junk junk) wo false := by
  intro L
  obtain ⟨d2', hd', _, hsam⟩ := Dist.C29_sample_partial ws w h m.width m.height m.len m.weights m.rows
  rw [hd] at hd'; cases hd'
  obtain ⟨x, y, wxy, hx, hy, hget, hpos, hs, hu0, hu1, hv0, hv1⟩ := hsam ud.1 ud.2 up.1 up.2 hud.1.1 hud.1.2 hud.2.1 hud.2.2 hup.1.1 hup.1.2 hup.2.1 hup.2.2
  set q : ℝ × ℝ := (((x : ℝ) + up.1) / w, ((y : ℝ) + up.2) / h) with hq
  have hsd : L.sampleDirect ⟨up.1, up.2, z, ud.1, ud.2⟩ g M = rayOrFail (makeInfinite (-envDir rot q.1 q.2) junk junk) (-envDir rot q.1 q.2) (envEval tex rot (makeInfinite (-envDir rot q.1 q.2) junk junk))
      (envPdfDirect d2 rot g (makeInfinite (-envDir rot q.1 q.2) junk junk)) := by
    simp only [L, env, hs]
  obtain ⟨P, hP, h0⟩ := envPdf_some m hd rot g (makeInfinite (-envDir rot q.1 q.2) junk junk)
  rw [hsd, hP]
  rcases h0.eq_or_lt with h0 | h0
  · rw [← h0, rayOrFail_zero]
    exact ⟨by simp, by simp, fun _ _ _ e => by cases e⟩
  · obtain ⟨C, e, hc⟩ := rayOrFail_pos (makeInfinite (-envDir rot q.1 q.2) junk junk) (-envDir rot q.1 q.2) (envEval tex rot (makeInfinite (-envDir rot q.1 q.2) junk junk)) _ h0
    rw [e]
    refine ⟨by simp, by simp, fun gL wo C' e' => ?_⟩
    cases e'
    refine ⟨rfl, ?_, P, hP, h0, hc⟩
    rw [V3.dot_neg_left, V3.dot_neg_right, neg_neg]
    exact envDir_unit _ _ _

open Classical in
theorem seenOn_map (Q : Query) (i : Fin 3) (node : Int) (sgn : V3 ℝ → Bool) (junk : V3 ℝ) (tex : ℝ → ℝ → V3 ℝ) (d2 : Dist.Dist2 ℝ) (rot : ℝ) (c : V3 ℝ) (r : ℝ) (sp : SI) (h : SkyAt Q node junk sp) (d : V3 ℝ) :
    seenOn Q i node (env sgn junk tex d2 rot c r) sp d = if SeesSky Q node sp.geom.p d then ENNReal.ofReal (chan i (tex (envCoords rot d).1 (envCoords rot d).2)) else 0 := by
  unfold seenOn SeesSky
  cases e : Q.isect sp.geom.p d with
  | none => simp
  | some hit =>
    by_cases hp : hit.primitive = node
    · simp [env, envEval, hp, h.faces d hit e hp]
    · simp [hp]

/-- Environment maps meet the requirements on lights. -/
theorem map_ok (Q : Query) (i : Fin 3) (node : Int) (M : Aff ℝ) (sgn : V3 ℝ → Bool) (junk : V3 ℝ) {tex ws w h} (m : MapOk tex ws w h) {d2 : Dist.Dist2 ℝ} (hd : Dist.init Dist.fresh ws w h = some d2) (rot : ℝ) (c : V3 ℝ) (r : ℝ) (sp : SI)
    (hsk : SkyAt Q node junk sp) : LightOk Q i node M (env sgn junk tex d2 rot c r) sp := by
  classical
  set L := env sgn junk tex d2 rot c r with hL
  have hev : Measurable fun wo : V3 ℝ => L.eval (makeInfinite wo junk junk) wo false := by
    show Measurable fun wo : V3 ℝ => tex (envCoords rot (-wo)).1 (envCoords rot (-wo)).2
    exact m.texture.comp ((measurable_envCoords rot).comp measurable_neg3)
  refine ⟨rfl, fun F hF => ?_, ?_, fun d h' _ _ _ => envPdf_some m hd rot sp.geom h'.geom⟩
  · set G : V3 ℝ → ℝ≥0∞ := fun wo => if -wo ∈ {d | SeesSky Q node sp.geom.p d} then F (-wo) else 0 with hGd
    have hG : Measurable G := Measurable.ite (hsk.measurable.preimage measurable_neg3) (hF.comp measurable_neg3) measurable_const
    have h4 : ∀ᵐ u ∂uniform4, ((0 ≤ u.1.1 ∧ u.1.1 < 1) ∧ (0 ≤ u.1.2 ∧ u.1.2 < 1)) ∧ ((0 ≤ u.2.1 ∧ u.2.1 < 1) ∧ (0 ≤ u.2.2 ∧ u.2.2 < 1)) := by
      have t1 : Measure.QuasiMeasurePreserving (Prod.fst : (ℝ × ℝ) × (ℝ × ℝ) → ℝ × ℝ) uniform4 uniform2 := Measure.quasiMeasurePreserving_fst
      have t2 : Measure.QuasiMeasurePreserving (Prod.snd : (ℝ × ℝ) × (ℝ × ℝ) → ℝ × ℝ) uniform4 uniform2 := Measure.quasiMeasurePreserving_snd
      exact (t1.ae uniform2_ae).and (t2.ae uniform2_ae)
    -- the third number of the position is not used
    have hz : ∀ (p : ℝ × ℝ × ℝ) (q : ℝ × ℝ), L.sampleDirect ⟨p.1, p.2.1, p.2.2, q.1, q.2⟩ sp.geom M = L.sampleDirect ⟨p.1, p.2.1, 0, q.1, q.2⟩ sp.geom M := fun p q => rfl
    have e1 : ∫⁻ p, ∫⁻ q, worthRay i (fun g wo => if Q.visible sp ⟨.light, node, g⟩ then F (-wo) else 0) (L.sampleDirect ⟨p.1, p.2.1, p.2.2, q.1, q.2⟩ sp.geom M) ∂uniform2 ∂uniform3 =
        ∫⁻ p, ∫⁻ q, worthRay i (fun _ wo => G wo) (L.sampleDirect ⟨p.1, p.2.1, 0, q.1, q.2⟩ sp.geom M) ∂uniform2 ∂uniform3 := by
      refine lintegral_congr_ae (int3_ae.mono fun p hp => ?_)
      beta_reduce
      refine lintegral_congr_ae (int2_ae.mono fun q hq => ?_)
      beta_reduce
      rw [hz]
      have hin := (env_sampled m hd sgn junk rot c r M sp.geom q (p.1, p.2.1) 0 hq ⟨hp.1, hp.2.1⟩).2.2
      cases e : L.sampleDirect ⟨p.1, p.2.1, 0, q.1, q.2⟩ sp.geom M with
      | ok gL wo C =>
        obtain ⟨rfl, hun, _⟩ := hin gL wo C e
        simp only [worthRay]
        congr 1
        by_cases hv : SeesSky Q node sp.geom.p (-wo)
        · rw [if_pos ((hsk.visible wo hun).mpr hv), hGd]
          beta_reduce
          rw [if_pos (show -wo ∈ {d | SeesSky Q node sp.geom.p d} from hv)]
        · rw [if_neg (fun hc => hv ((hsk.visible wo hun).mp hc)), hGd]
          beta_reduce
          rw [if_neg (show ¬ -wo ∈ {d | SeesSky Q node sp.geom.p d} from hv)]
      | fail => rfl
      | undef => rfl
      | unsupported => rfl
    obtain ⟨d2', hd', hden⟩ := C80_env_direct_partial sgn junk tex ws w h m.width m.height m.len m.weights m.rows rot c r M sp.geom 0
    rw [hd] at hd'; cases hd'
    have hae : AEMeasurable (fun u : (ℝ × ℝ) × (ℝ × ℝ) => worthRay i (fun _ wo => G wo) (L.sampleDirect ⟨u.2.1, u.2.2, 0, u.1.1, u.1.2⟩ sp.geom M)) uniform4 := by
      refine worthRay_aemeasurable (key := fun _ wo => wo) (p := fun wo => L.pdfDirect sp.geom (makeInfinite wo junk junk) M wo false) (f := fun wo => some (L.eval (makeInfinite wo junk junk) wo false)) (σ := solidAngleAt sp.geom)
        (by simp_rw [keyW_dir]; exact hden) (fun i => (measurable_value hev i).aemeasurable) ?_ i G hG
      refine h4.mono fun u hu => ?_
      obtain ⟨hn1, hn2, hin⟩ := env_sampled m hd sgn junk rot c r M sp.geom u.1 u.2 0 hu.1 hu.2
      refine ⟨hn1, hn2, fun gL wo C e => ?_⟩
      obtain ⟨_, _, P, hP, h0, hc⟩ := hin gL wo C e
      exact ⟨P, _, hP, rfl, h0, hc⟩
    obtain ⟨d2', hd', hint⟩ := C81_env_direct_partial sgn junk tex m.texture ws w h m.width m.height m.len m.weights m.rows m.black rot c r M sp.geom hsk.regular 0 i G hG
    rw [hd] at hd'; cases hd'
    rw [e1]
    refine (lintegral_four hae).trans (hint.trans ?_)
    have hm2 : Measurable fun d : V3 ℝ => Solid.value i (some (tex (envCoords rot d).1 (envCoords rot d).2)) * (if d ∈ {d | SeesSky Q node sp.geom.p d} then F d else 0) :=
      (measurable_value (m.texture.comp (measurable_envCoords rot)) i).mul (Measurable.ite hsk.measurable hF measurable_const)
    rw [← lintegral_solidAngleAt_neg sp.geom (G := fun d => seenOn Q i node L sp d * F d)]
    · refine lintegral_congr fun d => ?_
      rw [seenOn_map Q i node sgn junk tex d2 rot c r sp hsk]
      simp only [hGd, Set.mem_ofPred_eq]
      split <;> simp [Solid.value, env, envEval, makeInfinite]
    · have : (fun d => seenOn Q i node L sp d * F d) = fun d => Solid.value i (some (tex (envCoords rot d).1 (envCoords rot d).2)) * (if d ∈ {d | SeesSky Q node sp.geom.p d} then F d else 0) := by
        funext d
        rw [seenOn_map Q i node sgn junk tex d2 rot c r sp hsk]
        simp only [Set.mem_ofPred_eq]
        split <;> simp [Solid.value]
      rw [this]
      exact hm2
  · refine int3_ae.mono fun p hp => int2_ae.mono fun q hq => ?_
    obtain ⟨hu1, hu2, hin⟩ := env_sampled m hd sgn junk rot c r M sp.geom q (p.1, p.2.1) p.2.2 hq ⟨hp.1, hp.2.1⟩
    refine ⟨hu1, hu2, fun g wo C e hv => ?_⟩
    obtain ⟨rfl, hun, P, hP, hP0, hC⟩ := hin g wo C e
    obtain ⟨hit, hi, hpr⟩ := (hsk.visible wo hun).mp hv
    have hCe : C = (1 / P) • L.eval (makeInfinite wo junk junk) wo false := by rw [← hC, smul_smul, one_div_mul_cancel hP0.ne', one_smul]
    refine ⟨hun, by rw [hCe]; exact nonneg_smul (by positivity) (m.nonneg _ _), rfl, hit, hi, hpr, ?_⟩
    have := hsk.faces _ hit hi hpr
    simp only [hL, env, envPdfDirect, makeInfinite, this, neg_neg]

end LM.Transport
