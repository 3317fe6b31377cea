import Verif.Props.C82_Scene
/-
  C82: light sampling in scenes: what is required of each light, and that it suffices.
-/
namespace LM.Transport
open MeasureTheory LM LM.Surface LM.Material LM.Light LM.MathF LM.Path LM.Render LM.Solid
open scoped ENNReal

/-- One channel of the emission of a light, seen from sp in direction d: 0 if something else is seen there. -/
noncomputable def seenOn (Q : Query) (i : Fin 3) (node : Int) (L : Light) (sp : SI) (d : V3 ℝ) : ℝ≥0∞ :=
  match Q.isect sp.geom.p d with
  | none => 0
  | some h => if h.primitive = node then ENNReal.ofReal (chan i (L.eval h.geom (-d) true)) else 0

/-- What is required of a light, at node `node` with transform M: its samples towards a vertex sp estimate the emission of the part of it that is seen from sp, are at the point that is seen in their direction, and have the density
    reported for it. -/
structure LightOk (Q : Query) (i : Fin 3) (node : Int) (M : Aff ℝ) (L : Light) (sp : SI) : Prop where
  kind : L.isSpecular = false
  estimate : ∀ F, Measurable F → ∫⁻ p, ∫⁻ q, worthRay i (fun g wo => if Q.visible sp ⟨.light, node, g⟩ then F (-wo) else 0) (L.sampleDirect ⟨p.1, p.2.1, p.2.2, q.1, q.2⟩ sp.geom M) ∂uniform2 ∂uniform3 =
    ∫⁻ d, seenOn Q i node L sp d * F d ∂solidAngleAt sp.geom
  sampled : ∀ᵐ p ∂uniform3, ∀ᵐ q ∂uniform2, L.sampleDirect ⟨p.1, p.2.1, p.2.2, q.1, q.2⟩ sp.geom M ≠ .undef ∧ L.sampleDirect ⟨p.1, p.2.1, p.2.2, q.1, q.2⟩ sp.geom M ≠ .unsupported ∧
    ∀ g wo C, L.sampleDirect ⟨p.1, p.2.1, p.2.2, q.1, q.2⟩ sp.geom M = .ok g wo C → Q.visible sp ⟨.light, node, g⟩ = true → V3.dot wo wo = 1 ∧ NonNeg C ∧ g.degenerated = false ∧ ∃ h, Q.isect sp.geom.p (-wo) = some h ∧ h.primitive = node ∧ L.pdfDirect sp.geom g M wo true = L.pdfDirect sp.geom h.geom M wo true
  pdf : ∀ d h, V3.dot d d = 1 → Q.isect sp.geom.p d = some h → h.primitive = node → ∃ p, L.pdfDirect sp.geom h.geom M (-d) true = some p ∧ 0 ≤ p

/-- The density of sampling direction d at sp by sampling lights: that reported for the light seen there. -/
noncomputable def lightPdf (W : World) (Q : Query) (sp : SI) (d : V3 ℝ) : ℝ :=
  match Q.isect sp.geom.p d with
  | none => 0
  | some h => match W.lightAt h.primitive with
    | none => 0
    | some _ => match pdfDirect W sp (asLight h) (-d) true with
      | none => 0
      | some p => if V3.dot d d = 1 then p else 0

open Classical in
/-- The scattering function of a vertex, and its density, where they are defined. -/
noncomputable def bsdfOf (W : World) (sp : SI) (wi : V3 ℝ) (c : ℕ) (d : V3 ℝ) : V3 ℝ := if V3.dot d d = 1 then (match evalContrbDirection W sp wi d c .EL true with | some f => f | none => 0) else 0
open Classical in
noncomputable def pdfOf (W : World) (sp : SI) (wi : V3 ℝ) (c : ℕ) (d : V3 ℝ) : ℝ := if V3.dot d d = 1 then (match pdfDirection W sp wi d c true with | some p => p | none => 0) else 0

noncomputable def connection (W : World) (Q : Query) : Connection := ⟨fun sp => solidAngleAt sp.geom, bsdfOf W, pdfOf W, lightPdf W Q⟩

/-- What is required of the lights of a scene. -/
structure Lit (W : World) (Q : Query) (i : Fin 3) (node : ℕ → Int) (M : ℕ → Aff ℝ) (Lt : ℕ → Light) (sp : SI) : Prop where
  light : ∀ j < W.st.lights.length, LightOk Q i (node j) (M j) (Lt j) sp
  /-- what emits is in the table of lights -/
  all : ∀ d h, Q.isect sp.geom.p d = some h → (W.lightAt h.primitive).isSome → ∃ j < W.st.lights.length, h.primitive = node j
  measurable : Measurable (lightPdf W Q sp)
  seen : ∀ j < W.st.lights.length, Measurable (seenOn Q i (node j) (Lt j) sp)

theorem solidAngleAt_unit (g : Geom) : ∀ᵐ d ∂solidAngleAt g, V3.dot d d = 1 := by
  unfold solidAngleAt
  split
  · exact solidAngle_unit
  · exact projSA_unit _

/-- What is seen is the sum over the lights. -/
theorem seen_sum {W : World} {Q : Query} {i : Fin 3} {node M Lt} {comps} (h : LightTable W node M Lt) (sp : SI) (hl : ∀ d h, Q.isect sp.geom.p d = some h → (W.lightAt h.primitive).isSome → ∃ j < W.st.lights.length, h.primitive = node j)
    (d : V3 ℝ) : (optics W Q i comps).seen sp d = ∑ j ∈ Finset.range W.st.lights.length, seenOn Q i (node j) (Lt j) sp d := by
  unfold Optics.seen seenOn
  show (match Q.isect sp.geom.p d with | none => 0 | some hit => emitted W i hit (-d)) = _
  cases hi : Q.isect sp.geom.p d with
  | none => simp
  | some hit =>
    dsimp only
    cases hL : W.lightAt hit.primitive with
    | none =>
      simp only [emitted, hL]
      symm
      refine Finset.sum_eq_zero fun j hj => if_neg fun e => ?_
      rw [e, h.light j (Finset.mem_range.mp hj)] at hL
      cases hL
    | some L =>
      obtain ⟨j, hj, e⟩ := hl d hit hi (by rw [hL]; rfl)
      have hLj : L = Lt j := by
        have := h.light j hj
        rw [← e, hL] at this
        exact Option.some.inj this
      rw [Finset.sum_eq_single j]
      · rw [if_pos e]
        simp only [emitted, hL, hLj]
      · intro k hk hkj
        refine if_neg fun e' => hkj ?_
        have h1 := h.index k (Finset.mem_range.mp hk)
        rw [← e', e, h.index j hj] at h1
        exact (Option.some.inj h1).symm
      · intro hnj
        exact absurd (Finset.mem_range.mpr hj) hnj

/-- The density reported where a light of the table is seen. -/
theorem lightPdf_at {W : World} {Q : Query} {i : Fin 3} {node M Lt} (h : LightTable W node M Lt) {sp : SI} (hl : Lit W Q i node M Lt sp) {d : V3 ℝ} (hd : V3.dot d d = 1) {hit : SI} (hi : Q.isect sp.geom.p d = some hit)
    {j : ℕ} (hj : j < W.st.lights.length) (e : hit.primitive = node j) {p : ℝ} (hp : (Lt j).pdfDirect sp.geom hit.geom (M j) (-d) true = some p) :
    pdfDirect W sp (asLight hit) (-d) true = some (1 / (W.st.lights.length : ℝ) * p) ∧ lightPdf W Q sp d = 1 / (W.st.lights.length : ℝ) * p := by
  have e1 : asLight hit = ⟨.light, node j, hit.geom⟩ := by simp only [asLight, ← e]
  have h1 : pdfDirect W sp (asLight hit) (-d) true = some (1 / (W.st.lights.length : ℝ) * p) := by rw [e1]; exact h.pdf sp hit.geom (-d) j hj p hp
  refine ⟨h1, ?_⟩
  have hL : W.lightAt hit.primitive = some (Lt j) := by rw [e]; exact h.light j hj
  unfold lightPdf
  rw [hi]
  dsimp only
  rw [hL]
  dsimp only
  rw [h1]
  dsimp only
  rw [if_pos hd]

theorem Lit.connects {W : World} {Q : Query} {i : Fin 3} {node M Lt} (h : LightTable W node M Lt) {sp : SI} (hl : Lit W Q i node M Lt sp) (comps) : Connects W Q (optics W Q i comps) (connection W Q) i sp where
  light F hF := by
    rw [lights_average h]
    show _ = ∫⁻ d, (optics W Q i comps).seen sp d * F d ∂solidAngleAt sp.geom
    simp_rw [seen_sum h sp hl.all, Finset.sum_mul]
    rw [lintegral_finsetSum]
    · exact Finset.sum_congr rfl fun j hj => (hl.light j (Finset.mem_range.mp hj)).estimate F hF
    · intro j hj
      exact (hl.seen j (Finset.mem_range.mp hj)).mul hF
  sampled := by
    have hall : ∀ᵐ p ∂uniform3, ∀ᵐ q ∂uniform2, ∀ j ∈ Finset.range W.st.lights.length, _ := (by
      have := fun j hj => (hl.light j (Finset.mem_range.mp hj)).sampled
      have h1 := (Finset.eventually_all _).mpr this
      exact h1.mono fun p hp => (Finset.eventually_all _).mpr hp)
    refine uniform1_ae.mono fun s hs => hall.mono fun p hp => hp.mono fun q hq => ?_
    obtain ⟨j, hj, e⟩ := h.sampled ⟨p.1, p.2.1, s, p.2.2, q.1, q.2⟩ hs.1 hs.2 sp
    have hok := hl.light j hj
    have hnn : (0 : ℝ) ≤ W.st.lights.length := Nat.cast_nonneg _
    obtain ⟨h1, h2, h3⟩ := hq j (Finset.mem_range.mpr hj)
    rw [e]
    simp only [RaySampleU.toLight]
    cases es : (Lt j).sampleDirect ⟨p.1, p.2.1, p.2.2, q.1, q.2⟩ sp.geom (M j) with
    | undef => exact absurd es h1
    | unsupported => exact absurd es h2
    | fail => exact ⟨by simp [wrap], fun _ _ _ h => by simp [wrap] at h⟩
    | ok g wo C =>
      refine ⟨by simp [wrap], fun spL woL wL h4 hvis => ?_⟩
      simp only [wrap, SRes.ok.injEq] at h4
      obtain ⟨rfl, rfl, rfl⟩ := h4
      obtain ⟨hun, hC, hdeg, hit, hi, hprim, hpd⟩ := h3 g wo C es hvis
      have hun' : V3.dot (-wo) (-wo) = 1 := by simp only [V3.dot_neg_left, V3.dot_neg_right, neg_neg, hun]
      obtain ⟨p, hp, hp0⟩ := hok.pdf (-wo) hit hun' hi hprim
      refine ⟨hun, nonneg_smul hnn hC, ?_, hdeg, ?_⟩
      · simp only [isSpecularComponent, h.light j hj, Option.map_some, hok.kind]
      · have h5 := (lightPdf_at h hl hun' hi hj hprim hp).2
        rw [neg_neg] at hp
        rw [h.pdf sp g wo j hj p (by rw [hpd]; exact hp)]
        show _ = some (lightPdf W Q sp (-wo))
        rw [h5]
  measurable_pdf := hl.measurable
  nonneg_pdf d := by
    show 0 ≤ lightPdf W Q sp d
    by_cases hd : V3.dot d d = 1
    · cases hi : Q.isect sp.geom.p d with
      | none => unfold lightPdf; rw [hi]
      | some hit =>
        cases hL : W.lightAt hit.primitive with
        | none => unfold lightPdf; rw [hi]; dsimp only; rw [hL]
        | some L =>
          obtain ⟨j, hj, e⟩ := hl.all d hit hi (by rw [hL]; rfl)
          obtain ⟨p, hp, hp0⟩ := (hl.light j hj).pdf d hit hd hi e
          rw [(lightPdf_at h hl hd hi hj e hp).2]
          positivity
    · unfold lightPdf
      split
      · exact le_rfl
      · split
        · exact le_rfl
        · split
          · exact le_rfl
          · rw [if_neg hd]

theorem measurable_on_unit {α : Type} [MeasurableSpace α] [Zero α] {f F : V3 ℝ → α} (hF : Measurable F) (h1 : ∀ d, V3.dot d d = 1 → f d = F d) (h0 : ∀ d, V3.dot d d ≠ 1 → f d = 0) : Measurable f := by
  classical
  have : f = fun d => if d ∈ {d : V3 ℝ | V3.dot d d = 1} then F d else 0 := by
    funext d
    by_cases h : V3.dot d d = 1
    · rw [if_pos (show d ∈ {d : V3 ℝ | V3.dot d d = 1} from h), h1 d h]
    · rw [if_neg (show ¬ d ∈ {d : V3 ℝ | V3.dot d d = 1} from h), h0 d h]
  rw [this]
  exact Measurable.ite (measurableSet_eq_fun measurable_dot measurable_const) hF measurable_const

/-- A vertex with a scattering function, in terms of which everything is given. -/
theorem scatters_of {W : World} {Q : Query} {i : Fin 3} {comps} {sp : SI} {wi : V3 ℝ} {c : ℕ} (hspec : isSpecularComponent W sp c = some false) (F : V3 ℝ → V3 ℝ) (P : V3 ℝ → ℝ) (hF : Measurable F) (hP : Measurable P)
    (hFe : ∀ d, V3.dot d d = 1 → NonNeg (F d) ∧ ∀ e, evalContrbDirection W sp wi d c .EL e = some (F d)) (hPe : ∀ d, V3.dot d d = 1 → pdfDirection W sp wi d c true = some (P d) ∧ 0 ≤ P d ∧ (P d = 0 → F d = 0))
    (hit : ∀ᵐ u ∂uniform3, ∀ wo C, sampleDirection W ⟨u.1, u.2.1, u.2.2⟩ sp wi c .EL = .ok wo C → V3.dot wo wo = 1 ∧ ∀ h, Q.isect sp.geom.p wo = some h → (W.lightAt h.primitive).isSome →
      pdfDirect W sp (asLight h) (-wo) true = some (lightPdf W Q sp wo)) : Scatters W Q (optics W Q i comps) (connection W Q) i sp wi c := by
  have hb : ∀ d, V3.dot d d = 1 → bsdfOf W sp wi c d = F d := fun d hd => by
    unfold bsdfOf
    rw [if_pos hd, (hFe d hd).2 true]
  have hp : ∀ d, V3.dot d d = 1 → pdfOf W sp wi c d = P d := fun d hd => by
    unfold pdfOf
    rw [if_pos hd, (hPe d hd).1]
  refine ⟨?_, solidAngleAt_unit _, ?_, ?_, fun d hd => ?_, fun d hd => ?_, hit⟩
  · show scattered W i sp wi c = (solidAngleAt sp.geom).withDensity fun d => ENNReal.ofReal (chan i (bsdfOf W sp wi c d))
    unfold scattered
    rw [hspec]
    refine withDensity_congr_ae ((solidAngleAt_unit _).mono fun d hd => ?_)
    beta_reduce
    rw [(hFe d hd).2 false, hb d hd]; rfl
  · exact measurable_on_unit hF hb fun d hd => by show bsdfOf W sp wi c d = 0; unfold bsdfOf; rw [if_neg hd]
  · exact measurable_on_unit hP hp fun d hd => by show pdfOf W sp wi c d = 0; unfold pdfOf; rw [if_neg hd]
  · show _ = some (bsdfOf W sp wi c d) ∧ NonNeg (bsdfOf W sp wi c d)
    rw [hb d hd]
    exact ⟨(hFe d hd).2 true, (hFe d hd).1⟩
  · show _ = some (pdfOf W sp wi c d) ∧ 0 ≤ pdfOf W sp wi c d ∧ (bsdfOf W sp wi c d ≠ 0 → 0 < pdfOf W sp wi c d)
    rw [hb d hd, hp d hd]
    obtain ⟨h1, h2, h3⟩ := hPe d hd
    exact ⟨h1, h2, fun hne => lt_of_le_of_ne h2 fun h => hne (h3 h.symm)⟩

/-- A regular, lit scene meets the requirements for light sampling. -/
theorem Regular.nee {W : World} {Q : Query} {n : Int} {cam : Camera} {comps} (h : Regular W Q n cam comps) {node M Lt} (ht : LightTable W node M Lt) (i : Fin 3)
    (hl : ∀ sp wi, Vertex W Q n cam sp wi → Lit W Q i node M Lt sp) : NeeSound W Q (optics W Q i comps) (connection W Q) i (Vertex W Q n cam) where
  specular sp wi hv c hc := by
    have hL := hl sp wi hv
    have hhit : ∀ᵐ u ∂uniform3, ∀ wo C, sampleDirection W ⟨u.1, u.2.1, u.2.2⟩ sp wi c .EL = .ok wo C → V3.dot wo wo = 1 ∧ ∀ h, Q.isect sp.geom.p wo = some h → (W.lightAt h.primitive).isSome →
        pdfDirect W sp (asLight h) (-wo) true = some (lightPdf W Q sp wo) := by
      refine cube_ae.mono fun u hu wo C e => ?_
      have hun := ((h.direction hv hc ⟨u.1, u.2.1, u.2.2⟩ ⟨hu.1, hu.2.1, hu.2.2⟩).2 wo C e).2
      refine ⟨hun, fun hit hi hs => ?_⟩
      obtain ⟨j, hj, ej⟩ := hL.all wo hit hi hs
      obtain ⟨p, hp, hp0⟩ := (hL.light j hj).pdf wo hit hun hi ej
      obtain ⟨h1, h2⟩ := lightPdf_at ht hL hun hi hj ej hp
      rw [h1, h2]
    rcases hv with ⟨rfl, rfl⟩ | ⟨o, d, hd, hi, hinf, rfl⟩
    · have hc : c ∈ comps (camVertex W n cam) 0 := hc
      rw [h.single, Finset.mem_singleton] at hc
      subst hc
      refine ⟨false, rfl, fun _ => ⟨hL.connects ht comps, ?_⟩⟩
      obtain ⟨P, hP, hPe⟩ := cam_measurable h.proper
      refine scatters_of rfl (fun d => V3.all (P d)) P (measurable_mk hP hP hP) hP (fun d _ => ⟨⟨(hPe d).2.2, (hPe d).2.2, (hPe d).2.2⟩, fun e => ?_⟩) (fun d _ => ⟨?_, (hPe d).2.2, fun e => by ext <;> simp [V3.all, e]⟩) hhit
      · simp only [evalContrbDirection, camVertex, h.camera, (hPe d).2.1]
      · simp only [pdfDirection, camVertex, h.camera, Option.bind_some, (hPe d).1]
    · obtain ⟨hk, hdeg, hon, hgr, m, hm, hok⟩ := h.surface o d sp hd hi hinf
      rcases hok.comp c hc with hs | hs
      · have hspec : isSpecularComponent W sp c = some false := by simp only [isSpecularComponent, hk, hm, Option.bind_some, hs.kind]
        refine ⟨false, hspec, fun _ => ⟨hL.connects ht comps, ?_⟩⟩
        obtain ⟨F, hF, hFe⟩ := hs.eval
        obtain ⟨P, hP, hPe⟩ := hs.pdf
        refine scatters_of hspec (fun d' => shadingNormalCorrection sp.geom (-d) d' .EL • F d') P (measurable_smul3 (measurable_snc _ _) hF) hP
          (fun d' hd' => ⟨nonneg_smul (snc_nonneg _ _ _) (hFe d' hd').1, fun e => ?_⟩) (fun d' hd' => ?_) hhit
        · simp only [evalContrbDirection, hk, hm, Option.bind_some, (hFe d' hd').2 e, Option.map_some]
        · obtain ⟨P', F', h1, h2, h3, h4⟩ := hs.covers .EL d' hd'
          rw [hPe d' hd' false] at h1
          rw [(hFe d' hd').2 false] at h2
          cases h1; cases h2
          exact ⟨by simp only [pdfDirection, hk, hm, Option.bind_some, hPe d' hd' true], h3, fun e => by rw [h4 e, smul_zero]⟩
      · exact ⟨true, by simp only [isSpecularComponent, hk, hm, Option.bind_some, hs.kind], fun e => by cases e⟩

/-- C82. What the path tracer computes in a scene whose surfaces and lights meet the requirements, in every mode: the integral over the film of the radiance arriving along the primary rays. -/
theorem C82_scene {W : World} {Q : Query} {n : Int} {cam : Camera} {comps} (hR : Regular W Q n cam comps) (hcam : W.st.camera = some n) {node M Lt} (hT : LightTable W node M Lt) (i : Fin 3)
    (hl : ∀ sp wi, Vertex W Q n cam sp wi → Lit W Q i node M Lt sp) (hmeas : ∀ k sp wi, Vertex W Q n cam sp wi → Measurable ((optics W Q i comps).incoming k sp)) (cfg : Cfg) (dir : ℝ × ℝ → V3 ℝ)
    (hdir : ∀ q, primaryRay cam q.1 q.2 = some (dir q)) (H : ℝ × ℝ → ℝ≥0∞) (hH : Measurable H) (u : RaySampleU) (uc : ℝ) (rs : ℕ → Rnd) :
    average (cfg.maxVerts - 1) 1 rs (fun rs' => measured i H (ptSample W Q cfg u uc rs')) = ∫⁻ q, H q * (optics W Q i comps).incoming (cfg.maxVerts - 1) (camVertex W n cam) (dir q) ∂uniform2 :=
  C82_pt W Q _ (connection W Q) i _ (hR.sound i hmeas) cfg (fun _ => hR.nee hT i hl) n cam hcam hR.camera hR.proper (.inl ⟨rfl, rfl⟩) (by show 0 ∈ comps _ _; rw [hR.single]; simp) dir hdir H hH u uc rs

/-- C82. In particular the sampling modes agree. -/
theorem C82_modes_agree {W : World} {Q : Query} {n : Int} {cam : Camera} {comps} (hR : Regular W Q n cam comps) (hcam : W.st.camera = some n) {node M Lt} (hT : LightTable W node M Lt) (i : Fin 3)
    (hl : ∀ sp wi, Vertex W Q n cam sp wi → Lit W Q i node M Lt sp) (hmeas : ∀ k sp wi, Vertex W Q n cam sp wi → Measurable ((optics W Q i comps).incoming k sp))
    (m1 m2 : Mode) (px1 px2 : Bool) (maxVerts : ℕ) (H : ℝ × ℝ → ℝ≥0∞) (hH : Measurable H) (u : RaySampleU) (uc : ℝ) (rs : ℕ → Rnd) :
    average (maxVerts - 1) 1 rs (fun rs' => measured i H (ptSample W Q ⟨m1, px1, maxVerts⟩ u uc rs')) = average (maxVerts - 1) 1 rs (fun rs' => measured i H (ptSample W Q ⟨m2, px2, maxVerts⟩ u uc rs')) := by
  choose dir hdir using fun q : ℝ × ℝ => (C47_primary cam hR.proper q.1 q.2)
  exact (C82_scene hR hcam hT i hl hmeas ⟨m1, px1, maxVerts⟩ dir (fun q => (hdir q).1) H hH u uc rs).trans (C82_scene hR hcam hT i hl hmeas ⟨m2, px2, maxVerts⟩ dir (fun q => (hdir q).1) H hH u uc rs).symm

end LM.Transport
