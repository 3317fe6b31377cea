import Verif.Props.C100_Walk
import Verif.Props.C82_Lamps
import Verif.Props.C46_Light
/-
  C100: scenes with point lights and directional lights beside lights with extent.
-/
namespace LM.Transport
open MeasureTheory LM LM.Surface LM.Material LM.Light LM.MathF LM.Path LM.Render LM.Solid
open scoped ENNReal

instance singleton_v3' : MeasurableSingletonClass (V3 ℝ) := ⟨fun a => by
  have : ({a} : Set (V3 ℝ)) = V3.x ⁻¹' {a.x} ∩ (V3.y ⁻¹' {a.y} ∩ V3.z ⁻¹' {a.z}) := by
    ext b
    simp only [Set.mem_singleton_iff, Set.mem_inter_iff, Set.mem_preimage]
    constructor
    · rintro rfl; exact ⟨rfl, rfl, rfl⟩
    · rintro ⟨h1, h2, h3⟩; ext <;> assumption
  rw [this]
  exact (measurable_x (measurableSet_singleton _)).inter ((measurable_y (measurableSet_singleton _)).inter (measurable_z (measurableSet_singleton _)))⟩

/-! ### The path tracer -/

/-- What the path tracer computes, in terms of the requirements on the scene. -/
theorem pt_lit (W : World) (Q : Query) (S : Optics) (N : Connection) (A : SI → Measure (V3 ℝ)) (glow : SI → V3 ℝ → ℕ → Measure (V3 ℝ)) (i : Fin 3) (good) (hS : Sound W Q S i good) (c : Cfg) (hm : c.mode ≠ .naive)
    (hN : NeeSound2 W Q S N A glow i good)
    (n : Int) (cam : Camera) (hn : W.st.camera = some n) (hcam : W.cameraAt n = some cam) (hp : cam.Proper) (hg : good (camVertex W n cam) 0) (h0 : 0 ∈ S.comps (camVertex W n cam) 0)
    (dir : ℝ × ℝ → V3 ℝ) (hdir : ∀ q, primaryRay cam q.1 q.2 = some (dir q)) (H : ℝ × ℝ → ℝ≥0∞) (hH : Measurable H) (u : RaySampleU) (uc : ℝ) (rs : ℕ → Rnd) :
    average (c.maxVerts - 1) 1 rs (fun rs' => measured i H (ptSample W Q c u uc rs')) =
      ∫⁻ q, H q * S.lit (fun sp wi c => glow sp wi c Set.univ) (c.maxVerts - 1) (camVertex W n cam) (dir q) ∂uniform2 +
        if c.maxVerts - 1 = 0 ∨ c.pixel = true then 0 else ∫⁻ d, onFilm W H 1 (0, 0) d ∂glow (camVertex W n cam) 0 0 := by
  have hstart : ptStart W uc u = some ⟨camVertex W n cam, 0, 0, V3.all 1, (0, 0)⟩ := by
    simp only [ptStart, samplePosition, hn, hcam, sampleComponent, Option.map_some, one_smul]
    rfl
  have hsamp : ∀ rs', ptSample W Q c u uc rs' = walk W (rouletteAt (2 / 10)) (ptBody W Q c) rs' (c.maxVerts - 1) 1 ⟨camVertex W n cam, 0, 0, V3.all 1, (0, 0)⟩ := fun rs' => by
    unfold ptSample
    rw [hstart]; rfl
  have hsd : ∀ v : DirU, sampleDirection W v (camVertex W n cam) 0 0 .EL = .ok (dir (v.ud0, v.ud1)) (V3.all 1) := fun v => by
    have := hdir (v.ud0, v.ud1)
    dsimp only at this
    simp only [sampleDirection, camVertex, hcam, this]
  have hon : ∀ q : ℝ × ℝ, (0 ≤ q.1 ∧ q.1 < 1) ∧ (0 ≤ q.2 ∧ q.2 < 1) → rasterAt W (dir q) = some (some q) := fun q hq => by
    have := C47_round_trip cam hp q.1 q.2 ⟨hq.1.1, hq.1.2.le⟩ ⟨hq.2.1, hq.2.2.le⟩
    rw [hdir q, Option.bind_some] at this
    simp only [rasterAt, hn, Option.bind_some, hcam, Option.map_some, this]
  have hfilm := measurable_onCamera W n cam hn hcam H hH (0, 0)
  have hone : chan i (V3.all (1 : ℝ)) = 1 := by fin_cases i <;> rfl
  simp_rw [hsamp]
  rw [C100_walk W Q S N A glow i good hS c hm hN H rs (c.maxVerts - 1) 1 le_rfl _ hg h0 ⟨zero_le_one, zero_le_one, zero_le_one⟩ hfilm
    (fun _ d => ⟨rasterPosition cam d, by simp only [rasterAt, hn, Option.bind_some, hcam, Option.map_some]⟩)]
  · have hL : Measurable fun d => onFilm W H 1 (0, 0) d * S.lit (fun sp wi c => glow sp wi c Set.univ) (c.maxVerts - 1) (camVertex W n cam) d := hfilm.mul (hN.measurable _ _ _ hg)
    dsimp only
    rw [hone, ENNReal.ofReal_one, one_mul, ← hS.unbiased _ _ hg 0 h0 _ hL]
    simp_rw [hsd]
    simp only [worth, hone, ENNReal.ofReal_one, one_mul, and_true]
    rw [← lintegral_map_equiv_first (fun q => onFilm W H 1 (0, 0) (dir q) * S.lit (fun sp wi c => glow sp wi c Set.univ) (c.maxVerts - 1) (camVertex W n cam) (dir q)) (hL.comp (measurable_dir hdir))]
    congr 1
    refine lintegral_congr_ae (int2_ae.mono fun q hq => ?_)
    simp [onFilm, hon q hq]
  · intro _
    filter_upwards [int3_ae] with v hv wo C hd
    rw [hsd] at hd
    cases hd
    exact ⟨_, hon (v.1, v.2.1) ⟨hv.1, hv.2.1⟩⟩

/-! ### Lights -/

/-- What the samples of a light without extent are: all the same, with the irradiance as weight. -/
structure LampOk (Q : Query) (node : Int) (M : Aff ℝ) (L : Light) (sp : SI) (b : Shine) : Prop where
  unit : V3.dot b.dir b.dir = 1
  nonneg : NonNeg b.irradiance
  sample : ∀ us, L.sampleDirect us sp.geom M = .ok b.source (-b.dir) (cosineAt sp.geom b.dir • b.irradiance) ∨ (L.sampleDirect us sp.geom M = .fail ∧ cosineAt sp.geom b.dir = 0)
  special : L.isSpecular = true ∨ b.source.degenerated = true
  dark : ∀ d h, Q.isect sp.geom.p d = some h → h.primitive = node → L.eval h.geom (-d) true = 0
  pdf : ∀ d h, V3.dot d d = 1 → Q.isect sp.geom.p d = some h → h.primitive = node → ∃ p, L.pdfDirect sp.geom h.geom M (-d) true = some p ∧ 0 ≤ p

/-- What is required of the light at a node, of the given kind, at the vertex sp. A point light is not at the vertex and not hit by rays, a beam has a unit direction. -/
def SourceOk (Q : Query) (i : Fin 3) (node : Int) (M : Aff ℝ) (L : Light) (sp : SI) : Source → Prop
  | .extended => LightOk Q i node M L sp ∧ Measurable (seenOn Q i node L sp)
  | .point I p junk => L = Light.point I p junk ∧ NonNeg I ∧ sp.geom.infinite = false ∧ sp.geom.p ≠ p ∧ ∀ o d h, Q.isect o d = some h → h.primitive ≠ node
  | .beam E d junk => (∃ sgn c r, L = directional sgn junk E d c r) ∧ NonNeg E ∧ V3.dot d d = 1

theorem cosineAt_nonneg (g : Geom) (d : V3 ℝ) : 0 ≤ cosineAt g d := by
  unfold cosineAt
  split
  · exact zero_le_one
  · exact abs_nonneg _

theorem point_lamp (Q : Query) (node : Int) (M : Aff ℝ) (I p junk : V3 ℝ) (sp : SI) (hI : NonNeg I) (hf : sp.geom.infinite = false) (hp : sp.geom.p ≠ p) (hn : ∀ o d h, Q.isect o d = some h → h.primitive ≠ node) :
    ∃ b, (Source.point I p junk).shine sp.geom.p = some b ∧ LampOk Q node M (Light.point I p junk) sp b := by
  refine ⟨_, rfl, ?_⟩
  have hne : V3.dot (p - sp.geom.p) (p - sp.geom.p) ≠ 0 := fun h => hp (sub_eq_zero.mp (dot_self_zero h)).symm
  have hpos : 0 < V3.dot (p - sp.geom.p) (p - sp.geom.p) := Surface.dot_self_pos hne
  set x := sp.geom.p with hx
  set L2 := V3.dot (p - x) (p - x) with hL2
  have hs : 0 < Real.sqrt L2 := Real.sqrt_pos.mpr hpos
  have hswap : V3.dot (x - p) (x - p) = L2 := by rw [hL2]; simp only [V3.dot, V3.sub_x, V3.sub_y, V3.sub_z]; ring
  have hnorm : normalize (x - p) = some (-((1 / Real.sqrt L2) • (p - x))) := by
    simp only [Material.normalize, hswap, if_neg hne, Option.some.injEq]
    ext <;> simp <;> ring
  have hG : geometryTerm sp.geom (makeDegenerated p junk) = some (cosineAt sp.geom ((1 / Real.sqrt L2) • (p - x)) / L2) := by
    simp only [geometryTerm, hf, makeDegenerated, Bool.false_and, Bool.false_eq_true, if_false, Bool.or_self, ← hx, ← hL2, if_neg hne, Bool.or_false, Bool.true_or, if_true, mul_one, cosineAt]
  have hsd : ∀ us, (Light.point I p junk).sampleDirect us sp.geom M = rayOrFail (makeDegenerated p junk) (-((1 / Real.sqrt L2) • (p - x))) I (overG 1 (some (cosineAt sp.geom ((1 / Real.sqrt L2) • (p - x)) / L2))) := by
    intro us
    simp only [Light.point, ← hx, hnorm, hG]
  refine ⟨?_, ?_, fun us => ?_, .inr rfl, fun d h e hh => absurd hh (hn _ _ _ e), fun d h _ e hh => absurd hh (hn _ _ _ e)⟩
  · show V3.dot ((1 / Real.sqrt L2) • (p - x)) ((1 / Real.sqrt L2) • (p - x)) = 1
    have : V3.dot ((1 / Real.sqrt L2) • (p - x)) ((1 / Real.sqrt L2) • (p - x)) = (1 / Real.sqrt L2) * (1 / Real.sqrt L2) * L2 := by
      rw [hL2]; simp only [V3.dot, V3.smul_x, V3.smul_y, V3.smul_z]; ring
    rw [this, one_div, ← mul_inv, Real.mul_self_sqrt hpos.le, inv_mul_cancel₀ hne]
  · exact nonneg_smul (one_div_nonneg.mpr hpos.le) hI
  · rw [hsd us]
    show _ = Res.ok (makeDegenerated p junk) (-((1 / Real.sqrt L2) • (p - x))) (cosineAt sp.geom ((1 / Real.sqrt L2) • (p - x)) • ((1 / L2) • I)) ∨ _ ∧ cosineAt sp.geom ((1 / Real.sqrt L2) • (p - x)) = 0
    generalize (1 / Real.sqrt L2) • (p - x) = d
    rcases (cosineAt_nonneg sp.geom d).lt_or_eq with h0 | h0
    · left
      have hq : 0 < cosineAt sp.geom d / L2 := div_pos h0 hpos
      obtain ⟨C, e, hC⟩ := rayOrFail_pos (makeDegenerated p junk) (-d) I (1 / (cosineAt sp.geom d / L2)) (by positivity)
      simp only [overG, Option.map_some, hq.ne', if_false, e]
      congr 1
      rw [← hC, smul_smul, smul_smul]
      have : cosineAt sp.geom d * (1 / L2) * (1 / (cosineAt sp.geom d / L2)) = 1 := by
        have := h0.ne'
        field_simp
      rw [this, one_smul]
    · right
      rw [← h0]
      simp [overG, rayOrFail_zero]

theorem beam_lamp (Q : Query) (node : Int) (M : Aff ℝ) (sgn) (E d junk c : V3 ℝ) (r : ℝ) (sp : SI) (hE : NonNeg E) (hd : V3.dot d d = 1) :
    ∃ b, (Source.beam E d junk).shine sp.geom.p = some b ∧ LampOk Q node M (directional sgn junk E d c r) sp b := by
  refine ⟨_, rfl, by simp [V3.dot_neg_left, V3.dot_neg_right, hd], hE, fun us => ?_, .inl rfl, fun d' h e hh => rfl, fun d' h _ e hh => ⟨0, rfl, le_rfl⟩⟩
  show rayOrFail (makeInfinite d junk junk) d E (some (convertSAtoProjSA 1 sp.geom (-d))) = Res.ok (makeInfinite d junk junk) (- -d) (cosineAt sp.geom (-d) • E) ∨
    rayOrFail (makeInfinite d junk junk) d E (some (convertSAtoProjSA 1 sp.geom (-d))) = .fail ∧ cosineAt sp.geom (-d) = 0
  rw [neg_neg]
  have hcv : convertSAtoProjSA 1 sp.geom (-d) = if cosineAt sp.geom (-d) = 0 then 0 else 1 / cosineAt sp.geom (-d) := by
    unfold convertSAtoProjSA cosineAt
    cases sp.geom.degenerated <;> simp
  rw [hcv]
  rcases (cosineAt_nonneg sp.geom (-d)).lt_or_eq with h0 | h0
  · left
    rw [if_neg h0.ne']
    obtain ⟨C, e, hC⟩ := rayOrFail_pos (makeInfinite d junk junk) d E (1 / cosineAt sp.geom (-d)) (by positivity)
    rw [e]
    congr 1
    rw [← hC, smul_smul, mul_one_div_cancel h0.ne', one_smul]
  · right
    rw [← h0]
    simp [rayOrFail_zero]

/-- What is required of the lights of a scene at a vertex. -/
structure LitBy (W : World) (Q : Query) (i : Fin 3) (node : ℕ → Int) (M : ℕ → Aff ℝ) (Lt : ℕ → Light) (src : ℕ → Source) (sp : SI) : Prop where
  light : ∀ j < W.st.lights.length, SourceOk Q i (node j) (M j) (Lt j) sp (src j)
  /-- what emits is in the table of lights -/
  all : ∀ d h, Q.isect sp.geom.p d = some h → (W.lightAt h.primitive).isSome → ∃ j < W.st.lights.length, h.primitive = node j
  measurable : Measurable (lightPdf W Q sp)

theorem SourceOk.cases {Q : Query} {i : Fin 3} {node : Int} {M : Aff ℝ} {L : Light} {sp : SI} {s : Source} (h : SourceOk Q i node M L sp s) :
    (s.shine sp.geom.p = none ∧ LightOk Q i node M L sp ∧ Measurable (seenOn Q i node L sp)) ∨ ∃ b, s.shine sp.geom.p = some b ∧ LampOk Q node M L sp b := by
  cases s with
  | extended => exact .inl ⟨rfl, h⟩
  | point I p junk =>
    obtain ⟨rfl, h1, h2, h3, h4⟩ := h
    exact .inr (point_lamp Q node M I p junk sp h1 h2 h3 h4)
  | beam E d junk =>
    obtain ⟨⟨sgn, c, r, rfl⟩, h1, h2⟩ := h
    exact .inr (beam_lamp Q node M sgn E d junk c r sp h1 h2)

theorem SourceOk.pdf {Q : Query} {i : Fin 3} {node : Int} {M : Aff ℝ} {L : Light} {sp : SI} {s : Source} (h : SourceOk Q i node M L sp s) :
    ∀ d h, V3.dot d d = 1 → Q.isect sp.geom.p d = some h → h.primitive = node → ∃ p, L.pdfDirect sp.geom h.geom M (-d) true = some p ∧ 0 ≤ p := by
  rcases h.cases with ⟨_, h, _⟩ | ⟨b, _, h⟩
  · exact h.pdf
  · exact h.pdf

theorem LampOk.seen {Q : Query} {i : Fin 3} {node : Int} {M : Aff ℝ} {L : Light} {sp : SI} {b : Shine} (h : LampOk Q node M L sp b) : seenOn Q i node L sp = 0 := by
  funext d
  unfold seenOn
  cases hi : Q.isect sp.geom.p d with
  | none => rfl
  | some hit =>
    dsimp only
    split
    · next hp => rw [h.dark d hit hi hp, chan_zero]; simp
    · rfl

theorem lightPdf_at2 {W : World} {Q : Query} {node M Lt} (h : LightTable W node M Lt) {sp : SI} {d : V3 ℝ} (hd : V3.dot d d = 1) {hit : SI} (hi : Q.isect sp.geom.p d = some hit)
    {j : ℕ} (hj : j < W.st.lights.length) (e : hit.primitive = node j) {p : ℝ} (hp : (Lt j).pdfDirect sp.geom hit.geom (M j) (-d) true = some p) :
    pdfDirect W sp (asLight hit) (-d) true = some (1 / (W.st.lights.length : ℝ) * p) ∧ lightPdf W Q sp d = 1 / (W.st.lights.length : ℝ) * p := by
  have e1 : asLight hit = ⟨.light, node j, hit.geom⟩ := by simp only [asLight, ← e]
  have h1 : pdfDirect W sp (asLight hit) (-d) true = some (1 / (W.st.lights.length : ℝ) * p) := by rw [e1]; exact h.pdf sp hit.geom (-d) j hj p hp
  refine ⟨h1, ?_⟩
  have hL : W.lightAt hit.primitive = some (Lt j) := by rw [e]; exact h.light j hj
  unfold lightPdf
  rw [hi]
  dsimp only
  rw [hL]
  dsimp only
  rw [h1]
  dsimp only
  rw [if_pos hd]

theorem offSurface_light {W : World} {node : Int} {g : Geom} {L : Light} (h : W.lightAt node = some L) : offSurface W ⟨.light, node, g⟩ = (g.degenerated || L.isSpecular) := by
  simp only [offSurface, isSpecularComponent, h, Option.map_some]
  cases L.isSpecular <;> simp

/-- What one light adds to the average. -/
theorem source_average {W : World} {Q : Query} {i : Fin 3} {node M Lt} (h : LightTable W node M Lt) {sp : SI} {j : ℕ} (hj : j < W.st.lights.length) {s : Source} (hs : SourceOk Q i (node j) (M j) (Lt j) sp s)
    (F : Bool → V3 ℝ → ℝ≥0∞) (hF : ∀ b, Measurable (F b)) :
    ∫⁻ p, ∫⁻ q, worthRay i (fun g wo => if Q.visible sp ⟨.light, node j, g⟩ then F (offSurface W ⟨.light, node j, g⟩) (-wo) else 0) ((Lt j).sampleDirect ⟨p.1, p.2.1, p.2.2, q.1, q.2⟩ sp.geom (M j)) ∂uniform2 ∂uniform3 =
      ∫⁻ d, seenOn Q i (node j) (Lt j) sp d * F false d ∂solidAngleAt sp.geom + ∫⁻ d, F true d ∂(match s.shine sp.geom.p with
        | none => 0
        | some b => if Q.visible sp ⟨.light, node j, b.source⟩ then ENNReal.ofReal (chan i b.irradiance * cosineAt sp.geom b.dir) • Measure.dirac b.dir else 0) := by
  rcases hs.cases with ⟨e, hl, hm⟩ | ⟨b, e, hl⟩
  · rw [e, lintegral_zero_measure, add_zero, ← hl.estimate _ (hF false)]
    refine lintegral_congr_ae (hl.sampled.mono fun p hp => lintegral_congr_ae (hp.mono fun q hq => ?_))
    dsimp only
    cases es : (Lt j).sampleDirect ⟨p.1, p.2.1, p.2.2, q.1, q.2⟩ sp.geom (M j) with
    | ok g wo C =>
      simp only [worthRay]
      cases hv : Q.visible sp ⟨.light, node j, g⟩ with
      | false => simp
      | true =>
        obtain ⟨_, _, hdeg, _⟩ := hq.2.2 g wo C es hv
        rw [offSurface_light (h.light j hj), hdeg, hl.kind]
        rfl
    | fail => rfl
    | undef => rfl
    | unsupported => rfl
  · rw [e, hl.seen]
    simp only [Pi.zero_apply, zero_mul, lintegral_zero, zero_add]
    have hval : ∀ us, worthRay i (fun g wo => if Q.visible sp ⟨.light, node j, g⟩ then F (offSurface W ⟨.light, node j, g⟩) (-wo) else 0) ((Lt j).sampleDirect us sp.geom (M j)) =
        ENNReal.ofReal (chan i b.irradiance * cosineAt sp.geom b.dir) * if Q.visible sp ⟨.light, node j, b.source⟩ then F true b.dir else 0 := by
      intro us
      have ho : offSurface W ⟨.light, node j, b.source⟩ = true := by
        rw [offSurface_light (h.light j hj)]
        rcases hl.special with hk | hk <;> simp [hk]
      rcases hl.sample us with e | ⟨e, hc⟩
      · rw [e]
        simp only [worthRay, chan_smul, neg_neg, ho, mul_comm]
      · rw [e, hc]
        simp [worthRay]
    simp_rw [hval, int2_const, int3_const]
    split
    · rw [lintegral_smul_measure, lintegral_dirac' _ (hF true), smul_eq_mul]
    · simp

theorem LitBy.connects {W : World} {Q : Query} {i : Fin 3} {node M Lt src} (h : LightTable W node M Lt) {sp : SI} (hl : LitBy W Q i node M Lt src sp) (comps) :
    Connects2 W Q (optics W Q i comps) (connection W Q) (shineOn Q i W.st.lights.length node src sp) i sp where
  light F hF := by
    have e : (fun u => lightWorth2 W Q sp i F (sampleDirect W u sp .LE)) = fun u => lightWorthOf Q sp i (fun s => F (offSurface W s)) (sampleDirect W u sp .LE) := by
      funext u
      cases sampleDirect W u sp .LE <;> rfl
    rw [e, lights_average_of h]
    show _ = ∫⁻ d, (optics W Q i comps).seen sp d * F false d ∂solidAngleAt sp.geom + _
    simp_rw [seen_sum h sp hl.all, Finset.sum_mul]
    rw [lintegral_finsetSum, shineOn, lintegral_finset_sum_measure, ← Finset.sum_add_distrib]
    · exact Finset.sum_congr rfl fun j hj => source_average h (Finset.mem_range.mp hj) (hl.light j (Finset.mem_range.mp hj)) F hF
    · intro j hj
      refine Measurable.mul ?_ (hF false)
      rcases (hl.light j (Finset.mem_range.mp hj)).cases with ⟨_, _, hm⟩ | ⟨b, _, hb⟩
      · exact hm
      · rw [hb.seen]; exact measurable_const
  sampled := by
    have hall : ∀ᵐ p ∂uniform3, ∀ᵐ q ∂uniform2, ∀ j ∈ Finset.range W.st.lights.length, (Lt j).sampleDirect ⟨p.1, p.2.1, p.2.2, q.1, q.2⟩ sp.geom (M j) ≠ .undef ∧ (Lt j).sampleDirect ⟨p.1, p.2.1, p.2.2, q.1, q.2⟩ sp.geom (M j) ≠ .unsupported ∧
        ∀ g wo C, (Lt j).sampleDirect ⟨p.1, p.2.1, p.2.2, q.1, q.2⟩ sp.geom (M j) = .ok g wo C → Q.visible sp ⟨.light, node j, g⟩ = true → V3.dot wo wo = 1 ∧ NonNeg C ∧
          (offSurface W ⟨.light, node j, g⟩ = false → ∃ h, Q.isect sp.geom.p (-wo) = some h ∧ h.primitive = node j ∧ (Lt j).pdfDirect sp.geom g (M j) wo true = (Lt j).pdfDirect sp.geom h.geom (M j) wo true) := by
      have : ∀ j ∈ Finset.range W.st.lights.length, ∀ᵐ p ∂uniform3, ∀ᵐ q ∂uniform2, (Lt j).sampleDirect ⟨p.1, p.2.1, p.2.2, q.1, q.2⟩ sp.geom (M j) ≠ .undef ∧ (Lt j).sampleDirect ⟨p.1, p.2.1, p.2.2, q.1, q.2⟩ sp.geom (M j) ≠ .unsupported ∧
        ∀ g wo C, (Lt j).sampleDirect ⟨p.1, p.2.1, p.2.2, q.1, q.2⟩ sp.geom (M j) = .ok g wo C → Q.visible sp ⟨.light, node j, g⟩ = true → V3.dot wo wo = 1 ∧ NonNeg C ∧
          (offSurface W ⟨.light, node j, g⟩ = false → ∃ h, Q.isect sp.geom.p (-wo) = some h ∧ h.primitive = node j ∧ (Lt j).pdfDirect sp.geom g (M j) wo true = (Lt j).pdfDirect sp.geom h.geom (M j) wo true) := by
        intro j hj
        have hj := Finset.mem_range.mp hj
        rcases (hl.light j hj).cases with ⟨_, hk, hm⟩ | ⟨b, _, hb⟩
        · refine hk.sampled.mono fun p hp => hp.mono fun q hq => ⟨hq.1, hq.2.1, fun g wo C e hv => ?_⟩
          obtain ⟨h1, h2, h3, h4⟩ := hq.2.2 g wo C e hv
          exact ⟨h1, h2, fun _ => h4⟩
        · refine Filter.Eventually.of_forall fun p => Filter.Eventually.of_forall fun q => ?_
          rcases hb.sample ⟨p.1, p.2.1, p.2.2, q.1, q.2⟩ with e | ⟨e, _⟩
          · rw [e]
            refine ⟨by simp, by simp, fun g wo C e' hv => ?_⟩
            cases e'
            refine ⟨by simp [V3.dot_neg_left, V3.dot_neg_right, hb.unit], nonneg_smul (cosineAt_nonneg _ _) hb.nonneg, fun ho => ?_⟩
            rw [offSurface_light (h.light j hj)] at ho
            rcases hb.special with hk | hk <;> simp [hk] at ho
          · rw [e]
            exact ⟨by simp, by simp, fun g wo C e' => by cases e'⟩
      exact ((Finset.eventually_all _).mpr this).mono fun p hp => (Finset.eventually_all _).mpr hp
    refine uniform1_ae.mono fun s hs => hall.mono fun p hp => hp.mono fun q hq => ?_
    obtain ⟨j, hj, e⟩ := h.sampled ⟨p.1, p.2.1, s, p.2.2, q.1, q.2⟩ hs.1 hs.2 sp
    have hnn : (0 : ℝ) ≤ W.st.lights.length := Nat.cast_nonneg _
    obtain ⟨h1, h2, h3⟩ := hq j (Finset.mem_range.mpr hj)
    rw [e]
    simp only [RaySampleU.toLight]
    cases es : (Lt j).sampleDirect ⟨p.1, p.2.1, p.2.2, q.1, q.2⟩ sp.geom (M j) with
    | undef => exact absurd es h1
    | unsupported => exact absurd es h2
    | fail => exact ⟨by simp [wrap], fun _ _ _ h => by simp [wrap] at h⟩
    | ok g wo C =>
      refine ⟨by simp [wrap], fun spL woL wL h4 hvis => ?_⟩
      simp only [wrap, SRes.ok.injEq] at h4
      obtain ⟨rfl, rfl, rfl⟩ := h4
      obtain ⟨hun, hC, hoff⟩ := h3 g wo C es hvis
      refine ⟨hun, nonneg_smul hnn hC, ?_, fun ho => ?_⟩
      · simp only [isSpecularComponent, h.light j hj, Option.map_some, Option.isSome_some]
      · obtain ⟨hit, hi, hprim, hpd⟩ := hoff ho
        have hun' : V3.dot (-wo) (-wo) = 1 := by simp only [V3.dot_neg_left, V3.dot_neg_right, neg_neg, hun]
        obtain ⟨p, hp, hp0⟩ := (hl.light j hj).pdf (-wo) hit hun' hi hprim
        have h5 := (lightPdf_at2 h hun' hi hj hprim hp).2
        rw [neg_neg] at hp
        rw [h.pdf sp g wo j hj p (by rw [hpd]; exact hp)]
        show _ = some (lightPdf W Q sp (-wo))
        rw [h5]
  measurable_pdf := hl.measurable
  nonneg_pdf d := by
    show 0 ≤ lightPdf W Q sp d
    by_cases hd : V3.dot d d = 1
    · cases hi : Q.isect sp.geom.p d with
      | none => unfold lightPdf; rw [hi]
      | some hit =>
        cases hL : W.lightAt hit.primitive with
        | none => unfold lightPdf; rw [hi]; dsimp only; rw [hL]
        | some L =>
          obtain ⟨j, hj, e⟩ := hl.all d hit hi (by rw [hL]; rfl)
          obtain ⟨p, hp, hp0⟩ := (hl.light j hj).pdf d hit hd hi e
          rw [(lightPdf_at2 h hd hi hj e hp).2]
          positivity
    · unfold lightPdf
      split
      · exact le_rfl
      · split
        · exact le_rfl
        · split
          · exact le_rfl
          · rw [if_neg hd]

end LM.Transport
