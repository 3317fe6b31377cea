import Verif.Props.C101_Walk
import Verif.Props.C100_Lamps
import Verif.Props.C85_Homogeneous
/-
  C101: sampling of point lights, directional lights and lights with extent through a medium.
-/
namespace LM.Transport
open MeasureTheory LM LM.Surface LM.Material LM.Light LM.MathF LM.Path LM.Render LM.Solid LM.Bound LM.Volume LM.Tracking
open scoped ENNReal

variable {Ω : Type} [MeasurableSpace Ω] {μ : Measure Ω} [IsProbabilityMeasure μ]

/-- What is required of the lights of a scene with a medium at a vertex: visible samples of lights with extent are at the point seen in their direction, and the directions towards lights do not run inside a face plane of
    the medium's bound. -/
structure LitThrough (W : World) (Q : Query) (F : Fog) (i : Fin 3) (node : ℕ → Int) (M : ℕ → Aff ℝ) (Lt : ℕ → Light) (src : ℕ → Source) (sp : SI) : Prop where
  by_light : LitBy W Q i node M Lt src sp
  seen : ∀ j < W.st.lights.length, src j = .extended → LightSeen Q F.bound (node j) (M j) (Lt j) sp
  clear : ∀ j < W.st.lights.length, ∀ b, (src j).shine sp.geom.p = some b → Clear F.bound sp.geom.p b.dir
  depth : Measurable (F.depth Q sp)

/-- Towards a point light off the face planes, no direction runs inside a face plane. -/
theorem point_clear {b : Box ℝ} {p : V3 ℝ} (h : OffPlanes b p) (I junk x : V3 ℝ) (hx : x ≠ p) : ∀ s, (Source.point I p junk).shine x = some s → Clear b x s.dir := by
  intro s e
  have hne : V3.dot (p - x) (p - x) ≠ 0 := fun h => hx (sub_eq_zero.mp (dot_self_zero h)).symm
  have hs : 1 / Real.sqrt (V3.dot (p - x) (p - x)) ≠ 0 := (one_div_pos.mpr (Real.sqrt_pos.mpr (Surface.dot_self_pos hne))).ne'
  have e := (Option.some.inj e).symm
  subst e
  refine ⟨fun h0 => ?_, fun h0 => ?_, fun h0 => ?_⟩
  · have : p.x - x.x = 0 := (mul_eq_zero.mp h0).resolve_left hs
    have : x.x = p.x := by linarith
    show x.x ≠ _ ∧ x.x ≠ _
    rw [this]; exact h.1
  · have : p.y - x.y = 0 := (mul_eq_zero.mp h0).resolve_left hs
    have : x.y = p.y := by linarith
    show x.y ≠ _ ∧ x.y ≠ _
    rw [this]; exact h.2.1
  · have : p.z - x.z = 0 := (mul_eq_zero.mp h0).resolve_left hs
    have : x.z = p.z := by linarith
    show x.z ≠ _ ∧ x.z ≠ _
    rw [this]; exact h.2.2

section
variable {W : World} {Q : Query} {n : Int} {cam : Camera} {nm : Int} {comps : SI → V3 ℝ → Finset ℕ} {i : Fin 3} {F : Fog} {md : Ω → V3 ℝ → V3 ℝ → ℝ → ℝ → DistRes} {mt : Ω → V3 ℝ → V3 ℝ → ℝ → ℝ → Option (V3 ℝ)}

omit [MeasurableSpace Ω] in
/-- The transmittance towards a visible light without extent. -/
theorem lamp_tr (hm : W.st.medium = some nm) {node : Int} {M : Aff ℝ} {L : Light} {sp : SI} (hf : sp.geom.infinite = false) {s : Source} (hs : SourceOk Q i node M L sp s) {b : Shine} (e : s.shine sp.geom.p = some b)
    (hv : Q.visible sp ⟨.light, node, b.source⟩ = true) (t : Ω) : fogTr W Q mt t sp ⟨.light, node, b.source⟩ = mt t sp.geom.p b.dir 0 (reach sp.geom.p (some ⟨.light, node, b.source⟩)) := by
  simp only [fogTr, evalTransmittance, hv, hm, hf, reach]
  cases s with
  | extended => cases e
  | beam E d junk =>
    cases e
    simp [makeInfinite]
  | point I p junk =>
    obtain ⟨_, _, _, hp, _⟩ := hs
    cases e
    have hne : V3.dot (p - sp.geom.p) (p - sp.geom.p) ≠ 0 := fun h => hp (sub_eq_zero.mp (dot_self_zero h)).symm
    have hsw : V3.dot (sp.geom.p - p) (sp.geom.p - p) = V3.dot (p - sp.geom.p) (p - sp.geom.p) := by simp [V3.dot]; ring
    simp [makeDegenerated, Material.normalize, if_neg hne, hsw]

/-- The transmittance towards a vertex on a light. -/
noncomputable def Fog.depthTo (F : Fog) (sp s : SI) (d : V3 ℝ) : ℝ≥0∞ := ENNReal.ofReal (F.clarity sp.geom.p d (reach sp.geom.p (some s)))

omit [MeasurableSpace Ω] in
theorem reach_seen {sp h s : SI} {d : V3 ℝ} (hi : Q.isect sp.geom.p d = some h) (hinf : h.geom.infinite = s.geom.infinite) (hp : s.geom.infinite = false → h.geom.p = s.geom.p) :
    reach sp.geom.p (Q.isect sp.geom.p d) = reach sp.geom.p (some s) := by
  simp only [hi, reach, hinf]
  cases hg : s.geom.infinite with
  | true => rfl
  | false => rw [hp hg]

omit [IsProbabilityMeasure μ] in
/-- What is known of almost all light samples. -/
theorem samples_seen (hm : W.st.medium = some nm) {node M Lt src} (ht : LightTable W node M Lt) {sp : SI} (hf : sp.geom.infinite = false) (hl : LitThrough W Q F i node M Lt src sp) :
    Almost fun u => ∀ spL woL wL, sampleDirect W u sp .LE = .ok spL woL wL → Q.visible sp spL = true → Clear F.bound sp.geom.p (-woL) ∧ ∀ t, fogTr W Q mt t sp spL = mt t sp.geom.p (-woL) 0 (reach sp.geom.p (some spL)) := by
  have hall : ∀ᵐ p ∂uniform3, ∀ᵐ q ∂uniform2, ∀ j ∈ Finset.range W.st.lights.length, ∀ g wo C, (Lt j).sampleDirect ⟨p.1, p.2.1, p.2.2, q.1, q.2⟩ sp.geom (M j) = .ok g wo C → Q.visible sp ⟨.light, node j, g⟩ = true →
      Clear F.bound sp.geom.p (-wo) ∧ ∀ t, fogTr W Q mt t sp ⟨.light, node j, g⟩ = mt t sp.geom.p (-wo) 0 (reach sp.geom.p (some ⟨.light, node j, g⟩)) := by
    have : ∀ j ∈ Finset.range W.st.lights.length, ∀ᵐ p ∂uniform3, ∀ᵐ q ∂uniform2, ∀ g wo C, (Lt j).sampleDirect ⟨p.1, p.2.1, p.2.2, q.1, q.2⟩ sp.geom (M j) = .ok g wo C → Q.visible sp ⟨.light, node j, g⟩ = true →
        Clear F.bound sp.geom.p (-wo) ∧ ∀ t, fogTr W Q mt t sp ⟨.light, node j, g⟩ = mt t sp.geom.p (-wo) 0 (reach sp.geom.p (some ⟨.light, node j, g⟩)) := by
      intro j hj
      have hj := Finset.mem_range.mp hj
      have hs := hl.by_light.light j hj
      rcases hs.cases with ⟨e, hk, _⟩ | ⟨b, e, hb⟩
      · have he : src j = .extended := by
          cases hsj : src j with
          | extended => rfl
          | point => rw [hsj] at e; cases e
          | beam => rw [hsj] at e; cases e
        refine (hl.seen j hj he).mono fun p hp => hp.mono fun q hq g wo C es hv => ?_
        obtain ⟨h1, hit, h2, h3, h5, h6⟩ := hq g wo C es hv
        refine ⟨h1, fun t => ?_⟩
        rw [fogTr_visible hm hf hv h2 h3 h5 h6 t, reach_seen (s := ⟨.light, node j, g⟩) h2 h3 (fun hg => (h6 hg).1)]
      · refine Filter.Eventually.of_forall fun p => Filter.Eventually.of_forall fun q g wo C es hv => ?_
        rcases hb.sample ⟨p.1, p.2.1, p.2.2, q.1, q.2⟩ with e' | ⟨e', _⟩
        · rw [e'] at es
          cases es
          rw [neg_neg]
          exact ⟨hl.clear j hj b e, fun t => lamp_tr hm hf hs e hv t⟩
        · rw [e'] at es; cases es
    exact ((Finset.eventually_all _).mpr this).mono fun p hp => (Finset.eventually_all _).mpr hp
  refine uniform1_ae.mono fun s hs' => hall.mono fun p hp => hp.mono fun q hq => ?_
  obtain ⟨j, hj, e⟩ := ht.sampled ⟨p.1, p.2.1, s, p.2.2, q.1, q.2⟩ hs'.1 hs'.2 sp
  rw [e]
  simp only [RaySampleU.toLight]
  intro spL woL wL h4 hv
  cases es : (Lt j).sampleDirect ⟨p.1, p.2.1, p.2.2, q.1, q.2⟩ sp.geom (M j) with
  | undef => rw [es] at h4; simp [wrap] at h4
  | unsupported => rw [es] at h4; simp [wrap] at h4
  | fail => rw [es] at h4; simp [wrap] at h4
  | ok g wo C =>
    rw [es] at h4
    simp only [wrap, SRes.ok.injEq] at h4
    obtain ⟨rfl, rfl, rfl⟩ := h4
    exact hq j (Finset.mem_range.mpr hj) g wo C es hv

omit [MeasurableSpace Ω] in
/-- What one light adds to the average. -/
theorem source_through {node M Lt src} {sp : SI} (hl : LitThrough W Q F i node M Lt src sp) {j : ℕ} (hj : j < W.st.lights.length) (G : V3 ℝ → ℝ≥0∞) (hG : Measurable G) :
    ∫⁻ p, ∫⁻ q, worthRay i (fun g wo => if Q.visible sp ⟨.light, node j, g⟩ then F.depthTo sp ⟨.light, node j, g⟩ (-wo) * G (-wo) else 0) ((Lt j).sampleDirect ⟨p.1, p.2.1, p.2.2, q.1, q.2⟩ sp.geom (M j)) ∂uniform2 ∂uniform3 =
      ∫⁻ d, seenOn Q i (node j) (Lt j) sp d * (F.depth Q sp d * G d) ∂solidAngleAt sp.geom + ∫⁻ d, G d ∂(match (src j).shine sp.geom.p with
        | none => 0
        | some b => if Q.visible sp ⟨.light, node j, b.source⟩ then
            ENNReal.ofReal (chan i b.irradiance * cosineAt sp.geom b.dir * transmittance F.bound (fun t => F.extinction (sp.geom.p + t • b.dir)) sp.geom.p b.dir 0 (reach sp.geom.p (some ⟨.light, node j, b.source⟩))) • Measure.dirac b.dir
          else 0) := by
  have hs := hl.by_light.light j hj
  rcases hs.cases with ⟨e, hk, hm⟩ | ⟨b, e, hk⟩
  · have he : src j = .extended := by
      cases hsj : src j with
      | extended => rfl
      | point => rw [hsj] at e; cases e
      | beam => rw [hsj] at e; cases e
    rw [e, lintegral_zero_measure, add_zero, ← hk.estimate (fun d => F.depth Q sp d * G d) (hl.depth.mul hG)]
    refine lintegral_congr_ae ((hl.seen j hj he).mono fun p hp => lintegral_congr_ae (hp.mono fun q hq => ?_))
    dsimp only
    cases es : (Lt j).sampleDirect ⟨p.1, p.2.1, p.2.2, q.1, q.2⟩ sp.geom (M j) with
    | ok g wo C =>
      simp only [worthRay]
      cases hv : Q.visible sp ⟨.light, node j, g⟩ with
      | false => simp
      | true =>
        obtain ⟨h1, hit, h2, h3, h5, h6⟩ := hq g wo C es hv
        simp only [if_true, Fog.depthTo, Fog.depth]
        rw [reach_seen (s := ⟨.light, node j, g⟩) h2 h3 (fun hg => (h6 hg).1)]
    | fail => simp only [worthRay]
    | undef => simp only [worthRay]
    | unsupported => simp only [worthRay]
  · rw [e, hk.seen]
    simp only [Pi.zero_apply, zero_mul, lintegral_zero, zero_add]
    have hcn : 0 ≤ chan i b.irradiance * cosineAt sp.geom b.dir := mul_nonneg (chan_nonneg hk.nonneg i) (cosineAt_nonneg _ _)
    have hval : ∀ us, worthRay i (fun g wo => if Q.visible sp ⟨.light, node j, g⟩ then F.depthTo sp ⟨.light, node j, g⟩ (-wo) * G (-wo) else 0) ((Lt j).sampleDirect us sp.geom (M j)) =
        ENNReal.ofReal (chan i b.irradiance * cosineAt sp.geom b.dir) * if Q.visible sp ⟨.light, node j, b.source⟩ then F.depthTo sp ⟨.light, node j, b.source⟩ b.dir * G b.dir else 0 := by
      intro us
      rcases hk.sample us with e | ⟨e, hc⟩
      · rw [e]
        simp only [worthRay, chan_smul, neg_neg, mul_comm (chan i b.irradiance)]
      · rw [e, hc]
        simp [worthRay]
    simp_rw [hval, int2_const, int3_const]
    split
    · rw [lintegral_smul_measure, lintegral_dirac' _ hG, smul_eq_mul, ENNReal.ofReal_mul hcn, mul_assoc, Fog.depthTo, Fog.clarity]
    · rw [lintegral_zero_measure, mul_zero]

theorem Foggy.connects2 (h : Foggy μ W Q n cam nm comps i F md mt) {node M Lt src} (ht : LightTable W node M Lt) {sp : SI} (hf : sp.geom.infinite = false) (hl : LitThrough W Q F i node M Lt src sp) :
    VolConnects2 μ W (optics W Q i comps) F (fogTr W Q mt) (solidAngleAt sp.geom) (shineThrough F Q i W.st.lights.length node src sp) i sp := by
  have hC := hl.by_light.connects ht comps
  have key := samples_seen (mt := mt) h.node ht hf hl
  have hnv : ∀ t spL, Q.visible sp spL = false → fogTr W Q mt t sp spL = some 0 := fun t spL hv => by
    simp only [fogTr, evalTransmittance, hv, Bool.not_false, if_true]; rfl
  refine ⟨fun G hG hGf => ?_, ?_⟩
  · have e : averageLight (fun u => ∫⁻ t, trWorth i G (fogTr W Q mt t sp) (sampleDirect W u sp .LE) ∂μ) = averageLight fun u => lightWorthOf Q sp i (fun s d => F.depthTo sp s d * G d) (sampleDirect W u sp .LE) := by
      refine averageLight_congr (Filter.Eventually.mono key fun s hs1 => hs1.mono fun p hp => hp.mono fun q hq => ?_)
      beta_reduce
      cases hsd : sampleDirect W ⟨p.1, p.2.1, s, p.2.2, q.1, q.2⟩ sp .LE with
      | undef => simp only [trWorth, lightWorthOf]; exact intP_const _
      | fail => simp only [trWorth, lightWorthOf]; exact intP_const _
      | ok spL woL wL =>
        cases hv : Q.visible sp spL with
        | false => simp [trWorth, lightWorthOf, hv, hnv _ spL hv, chan_zero]
        | true =>
          obtain ⟨hcl, htr⟩ := hq spL woL wL hsd hv
          have hval : ∀ t, trWorth i G (fogTr W Q mt t sp) (.ok spL woL wL) = if fogTr W Q mt t sp spL = none then ⊤ else Solid.value i (mt t sp.geom.p (-woL) 0 (reach sp.geom.p (some spL))) * (ENNReal.ofReal (chan i wL) * G (-woL)) := fun t => by
            simp only [trWorth]
            cases hT : fogTr W Q mt t sp spL with
            | none => simp
            | some T => rw [← htr t, hT]; simp [Solid.value]
          simp_rw [hval]
          simp only [lightWorthOf, hv, if_true]
          rw [lintegral_congr_ae (g := fun t => Solid.value i (mt t sp.geom.p (-woL) 0 (reach sp.geom.p (some spL))) * (ENNReal.ofReal (chan i wL) * G (-woL)))
            ((h.medium.defined _ _ (reach sp.geom.p (some spL)) hcl).mono fun t ⟨T, hT, _⟩ => by beta_reduce; rw [if_neg]; rw [htr t, hT]; simp), lintegral_mul_const' _ _ (ENNReal.mul_ne_top ENNReal.ofReal_ne_top (hGf _)), h.medium.transmittance _ _ _ hcl]
          unfold Fog.depthTo
          ring
    rw [e, lights_average_of ht]
    have hseen : ∀ d, F.seen (optics W Q i comps) sp d * G d = ∑ j ∈ Finset.range W.st.lights.length, seenOn Q i (node j) (Lt j) sp d * (F.depth Q sp d * G d) := fun d => by
      rw [seen_depth, seen_sum ht sp hl.by_light.all, ← Finset.sum_mul]
      ring
    simp_rw [hseen]
    rw [lintegral_finsetSum, shineThrough, lintegral_finsetSum_measure, ← Finset.sum_add_distrib]
    · exact Finset.sum_congr rfl fun j hj => source_through hl (Finset.mem_range.mp hj) G hG
    · intro j hj
      refine Measurable.mul ?_ (hl.depth.mul hG)
      rcases (hl.by_light.light j (Finset.mem_range.mp hj)).cases with ⟨_, _, hm⟩ | ⟨b, _, hb⟩
      · exact hm
      · rw [hb.seen]; exact measurable_const
  · have hcs : Almost _ := hC.sampled
    refine Filter.Eventually.mp key (Filter.Eventually.mono hcs fun s h1 h2 => h2.mp (h1.mono fun p h1 h2 => h2.mp (h1.mono fun q h1 h2 => ?_)))
    refine ⟨h1.1, fun spL woL wL e => ?_⟩
    cases hv : Q.visible sp spL with
    | false => exact Filter.Eventually.of_forall fun t => ⟨0, hnv t spL hv, fun hc => absurd rfl hc⟩
    | true =>
      obtain ⟨hcl, htr⟩ := h2 spL woL wL e hv
      obtain ⟨hun, hwL, _⟩ := h1.2 spL woL wL e hv
      exact (h.medium.defined _ _ (reach sp.geom.p (some spL)) hcl).mono fun t ⟨T, hT, hTn⟩ => ⟨T, by rw [htr t, hT], fun _ => ⟨hun, hwL, hTn⟩⟩

end

end LM.Transport
