import Verif.Props.C100_Lamps
/-
  C100: what the path tracer computes in scenes with point lights and directional lights.
-/
namespace LM.Transport
open MeasureTheory LM LM.Surface LM.Material LM.Light LM.MathF LM.Path LM.Render LM.Solid
open scoped ENNReal

/-- One channel of what a component scatters of what arrives from the lights without extent: for a BSDF, its value in the directions of the lights times what arrives from there; nothing for specular components. -/
noncomputable def glowing (W : World) (Q : Query) (i : Fin 3) (node : ℕ → Int) (src : ℕ → Source) (sp : SI) (wi : V3 ℝ) (c : ℕ) : Measure (V3 ℝ) :=
  if isSpecularComponent W sp c = some false then (shineOn Q i W.st.lights.length node src sp).withDensity fun d => Solid.value i (evalContrbDirection W sp wi d c .EL false) else 0

/-- One channel of the radiance arriving at sp from direction d after at most k - 1 scatterings, from lights with and without extent. -/
noncomputable def radianceLit (W : World) (Q : Query) (i : Fin 3) (comps : SI → V3 ℝ → Finset ℕ) (node : ℕ → Int) (src : ℕ → Source) : ℕ → SI → V3 ℝ → ℝ≥0∞ :=
  (optics W Q i comps).lit fun sp wi c => glowing W Q i node src sp wi c Set.univ

theorem shineOn_unit {W : World} {Q : Query} {i : Fin 3} {node M Lt src} {sp : SI} (hl : LitBy W Q i node M Lt src sp) : ∀ᵐ d ∂shineOn Q i W.st.lights.length node src sp, V3.dot d d = 1 := by
  have hms : MeasurableSet {d : V3 ℝ | V3.dot d d = 1} := measurableSet_eq_fun measurable_dot measurable_const
  rw [ae_iff, shineOn, Measure.finset_sum_apply]
  refine Finset.sum_eq_zero fun j hj => ?_
  rcases (hl.light j (Finset.mem_range.mp hj)).cases with ⟨e, _⟩ | ⟨b, e, hb⟩
  · rw [e]; rfl
  · rw [e]
    dsimp only
    split
    · rw [Measure.smul_apply, show {a : V3 ℝ | ¬ V3.dot a a = 1} = {d : V3 ℝ | V3.dot d d = 1}ᶜ from rfl, Measure.dirac_apply' _ hms.compl]
      simp [hb.unit]
    · rfl

/-- A regular scene whose lights meet the requirements meets those for light sampling. -/
theorem Regular.nee2 {W : World} {Q : Query} {n : Int} {cam : Camera} {comps} (h : Regular W Q n cam comps) {node M Lt src} (ht : LightTable W node M Lt) (i : Fin 3)
    (hl : ∀ sp wi, Vertex W Q n cam sp wi → LitBy W Q i node M Lt src sp) (hmeas : ∀ k sp wi, Vertex W Q n cam sp wi → Measurable (radianceLit W Q i comps node src k sp)) :
    NeeSound2 W Q (optics W Q i comps) (connection W Q) (shineOn Q i W.st.lights.length node src) (glowing W Q i node src) i (Vertex W Q n cam) where
  measurable := hmeas
  specular sp wi hv c hc := by
    have hL := hl sp wi hv
    have hhit : ∀ᵐ u ∂uniform3, ∀ wo C, sampleDirection W ⟨u.1, u.2.1, u.2.2⟩ sp wi c .EL = .ok wo C → V3.dot wo wo = 1 ∧ ∀ h, Q.isect sp.geom.p wo = some h → (W.lightAt h.primitive).isSome →
        pdfDirect W sp (asLight h) (-wo) true = some (lightPdf W Q sp wo) := by
      refine cube_ae.mono fun u hu wo C e => ?_
      have hun := ((h.direction hv hc ⟨u.1, u.2.1, u.2.2⟩ ⟨hu.1, hu.2.1, hu.2.2⟩).2 wo C e).2
      refine ⟨hun, fun hit hi hs => ?_⟩
      obtain ⟨j, hj, ej⟩ := hL.all wo hit hi hs
      obtain ⟨p, hp, hp0⟩ := (hL.light j hj).pdf wo hit hun hi ej
      obtain ⟨h1, h2⟩ := lightPdf_at2 ht hun hi hj ej hp
      rw [h1, h2]
    have hglow : ∀ {F : V3 ℝ → V3 ℝ}, isSpecularComponent W sp c = some false → (∀ d, V3.dot d d = 1 → ∀ e, evalContrbDirection W sp wi d c .EL e = some (F d)) →
        glowing W Q i node src sp wi c = (shineOn Q i W.st.lights.length node src sp).withDensity fun d => ENNReal.ofReal (chan i (bsdfOf W sp wi c d)) := by
      intro F hs hF
      unfold glowing
      rw [if_pos hs]
      refine withDensity_congr_ae ((shineOn_unit hL).mono fun d hd => ?_)
      have : bsdfOf W sp wi c d = F d := by
        unfold bsdfOf
        rw [if_pos hd, hF d hd true]
      beta_reduce
      rw [hF d hd false, this]; rfl
    have hv' := hv
    rcases hv with ⟨rfl, rfl⟩ | ⟨o, d, hd, hi, hinf, rfl⟩
    · have hc : c ∈ comps (camVertex W n cam) 0 := hc
      rw [h.single, Finset.mem_singleton] at hc
      subst hc
      obtain ⟨P, hP, hPe⟩ := cam_measurable h.proper
      have he : ∀ d e, evalContrbDirection W (camVertex W n cam) 0 d 0 .EL e = some (V3.all (P d)) := fun d e => by simp only [evalContrbDirection, camVertex, h.camera, (hPe d).2.1]
      refine ⟨false, rfl, fun e => (by cases e), fun _ => ⟨hL.connects ht comps, ?_, hglow rfl fun d _ e => he d e⟩⟩
      refine scatters_of rfl (fun d => V3.all (P d)) P (measurable_mk hP hP hP) hP (fun d _ => ⟨⟨(hPe d).2.2, (hPe d).2.2, (hPe d).2.2⟩, fun e => he d e⟩) (fun d _ => ⟨?_, (hPe d).2.2, fun e => by ext <;> simp [V3.all, e]⟩) hhit
      simp only [pdfDirection, camVertex, h.camera, Option.bind_some, (hPe d).1]
    · obtain ⟨hk, hdeg, hon, hgr, m, hm, hok⟩ := h.surface o d sp hd hi hinf
      rcases hok.comp c hc with hs | hs
      · have hspec : isSpecularComponent W sp c = some false := by simp only [isSpecularComponent, hk, hm, Option.bind_some, hs.kind]
        obtain ⟨F, hF, hFe⟩ := hs.eval
        obtain ⟨P, hP, hPe⟩ := hs.pdf
        have he : ∀ d', V3.dot d' d' = 1 → ∀ e, evalContrbDirection W sp (-d) d' c .EL e = some (shadingNormalCorrection sp.geom (-d) d' .EL • F d') := fun d' hd' e => by
          simp only [evalContrbDirection, hk, hm, Option.bind_some, (hFe d' hd').2 e, Option.map_some]
        refine ⟨false, hspec, fun e => (by cases e), fun _ => ⟨hL.connects ht comps, ?_, hglow hspec he⟩⟩
        refine scatters_of hspec (fun d' => shadingNormalCorrection sp.geom (-d) d' .EL • F d') P (measurable_smul3 (measurable_snc _ _) hF) hP
          (fun d' hd' => ⟨nonneg_smul (snc_nonneg _ _ _) (hFe d' hd').1, he d' hd'⟩) (fun d' hd' => ?_) hhit
        obtain ⟨P', F', h1, h2, h3, h4⟩ := hs.covers .EL d' hd'
        rw [hPe d' hd' false] at h1
        rw [(hFe d' hd').2 false] at h2
        cases h1; cases h2
        exact ⟨by simp only [pdfDirection, hk, hm, Option.bind_some, hPe d' hd' true], h3, fun e => by rw [h4 e, smul_zero]⟩
      · have hspec : isSpecularComponent W sp c = some true := by simp only [isSpecularComponent, hk, hm, Option.bind_some, hs.kind]
        exact ⟨true, hspec, fun _ => by simp [glowing, hspec], fun e => by cases e⟩

/-- C100. What the path tracer computes in a scene with point lights, directional lights and lights with extent, in the modes with light sampling: the integral over the film of the radiance arriving along the primary
    rays. Missing: the mode without light sampling, which does not find lights without extent (`C100_negation_naive`); and the images of these lights themselves, points of light, that are added if primary rays are
    sampled on the whole film, and missing if they are sampled in a pixel (last summand, `C100_negation_dots`). -/
theorem C100_scene_partial {W : World} {Q : Query} {n : Int} {cam : Camera} {comps} (hR : Regular W Q n cam comps) (hcam : W.st.camera = some n) {node M Lt} (hT : LightTable W node M Lt) (src : ℕ → Source) (i : Fin 3)
    (hl : ∀ sp wi, Vertex W Q n cam sp wi → LitBy W Q i node M Lt src sp) (hmeas : ∀ k sp wi, Vertex W Q n cam sp wi → Measurable ((optics W Q i comps).incoming k sp))
    (hmeas2 : ∀ k sp wi, Vertex W Q n cam sp wi → Measurable (radianceLit W Q i comps node src k sp)) (cfg : Cfg) (hm : cfg.mode ≠ .naive) (dir : ℝ × ℝ → V3 ℝ)
    (hdir : ∀ q, primaryRay cam q.1 q.2 = some (dir q)) (H : ℝ × ℝ → ℝ≥0∞) (hH : Measurable H) (u : RaySampleU) (uc : ℝ) (rs : ℕ → Rnd) :
    average (cfg.maxVerts - 1) 1 rs (fun rs' => measured i H (ptSample W Q cfg u uc rs')) = ∫⁻ q, H q * radianceLit W Q i comps node src (cfg.maxVerts - 1) (camVertex W n cam) (dir q) ∂uniform2 +
      if cfg.maxVerts - 1 = 0 ∨ cfg.pixel = true then 0 else ∫⁻ d, onFilm W H 1 (0, 0) d ∂glowing W Q i node src (camVertex W n cam) 0 0 :=
  pt_lit W Q _ (connection W Q) _ _ i _ (hR.sound i hmeas) cfg hm (hR.nee2 hT i hl hmeas2) n cam hcam hR.camera hR.proper (.inl ⟨rfl, rfl⟩) (by show 0 ∈ comps _ _; rw [hR.single]; simp) dir hdir H hH u uc rs

/-- C100. In particular light sampling with and without multiple importance sampling agree. -/
theorem C100_modes_agree {W : World} {Q : Query} {n : Int} {cam : Camera} {comps} (hR : Regular W Q n cam comps) (hcam : W.st.camera = some n) {node M Lt} (hT : LightTable W node M Lt) (src : ℕ → Source) (i : Fin 3)
    (hl : ∀ sp wi, Vertex W Q n cam sp wi → LitBy W Q i node M Lt src sp) (hmeas : ∀ k sp wi, Vertex W Q n cam sp wi → Measurable ((optics W Q i comps).incoming k sp))
    (hmeas2 : ∀ k sp wi, Vertex W Q n cam sp wi → Measurable (radianceLit W Q i comps node src k sp)) (pixel : Bool) (maxVerts : ℕ) (H : ℝ × ℝ → ℝ≥0∞) (hH : Measurable H) (u : RaySampleU) (uc : ℝ) (rs : ℕ → Rnd) :
    average (maxVerts - 1) 1 rs (fun rs' => measured i H (ptSample W Q ⟨.nee, pixel, maxVerts⟩ u uc rs')) = average (maxVerts - 1) 1 rs (fun rs' => measured i H (ptSample W Q ⟨.mis, pixel, maxVerts⟩ u uc rs')) := by
  choose dir hdir using fun q : ℝ × ℝ => (C47_primary cam hR.proper q.1 q.2)
  exact (C100_scene_partial hR hcam hT src i hl hmeas hmeas2 ⟨.nee, pixel, maxVerts⟩ (by simp) dir (fun q => (hdir q).1) H hH u uc rs).trans
    (C100_scene_partial hR hcam hT src i hl hmeas hmeas2 ⟨.mis, pixel, maxVerts⟩ (by simp) dir (fun q => (hdir q).1) H hH u uc rs).symm

end LM.Transport
