import Verif.Props.C87_Bdpt
import Verif.Props.C86_LightTracing
/-
  C87: the scenes, and the site of a scene.
-/
namespace LM.Transport
open MeasureTheory LM LM.Surface LM.Material LM.Light LM.MathF LM.Path LM.Render LM.Solid LM.Chain Set
open scoped ENNReal

/-- Scenes of flat triangles with area lights, a pinhole camera, and materials that scatter with BSDFs: those of C86 (`Matte`, `Lamps`), without shading normals; the densities `P` and the probabilities `pc` of the materials; and visibility. -/
structure PathScene (W : World) (Q : Query) (n : Int) (cam : Camera) (Fs : List (Int × Tri)) (vertex : Int → V3 ℝ → SI) (mat : Int → Mat) (C : Int → Finset ℕ) (f : Int → ℕ → V3 ℝ → V3 ℝ → V3 ℝ → V3 ℝ)
    (P : Int → ℕ → V3 ℝ → V3 ℝ → V3 ℝ → ℝ) (pc : Int → ℕ → V3 ℝ → V3 ℝ → ℝ) (node : ℕ → Int) (M : ℕ → Aff ℝ) (sgn : V3 ℝ → Bool) (junk : V3 ℝ) (Ke : ℕ → V3 ℝ) (ts : ℕ → List Tri) : Prop where
  matte : Matte W Q n cam Fs vertex mat C f
  lamps : Lamps W Fs vertex node M sgn junk Ke ts
  /-- there are no shading normals -/
  flat : ∀ j ∈ Fs.map (·.1), ∀ p, (vertex j p).geom.n = (vertex j p).geom.gn
  /-- the materials report P as density of sampling directions -/
  pdf : ∀ j ∈ Fs.map (·.1), ∀ c ∈ C j, ∀ p wi wo, V3.dot wi wi = 1 → V3.dot wo wo = 1 → V3.dot wi (vertex j p).geom.n ≠ 0 → (mat j).pdfDirection (vertex j p).geom wi wo c false = some (P j c p wi wo)
  pdf_measurable : ∀ j c, Measurable fun q : V3 ℝ × V3 ℝ × V3 ℝ => P j c q.1 q.2.1 q.2.2
  /-- and pc as probability of selecting components, of which none is zero -/
  component : ∀ j ∈ Fs.map (·.1), ∀ c ∈ C j, ∀ p wi, V3.dot wi wi = 1 → V3.dot wi (vertex j p).geom.n ≠ 0 → (mat j).pdfComponent c (vertex j p).geom wi = some (pc j c p wi) ∧ 0 < pc j c p wi
  component_measurable : ∀ j c, Measurable fun q : V3 ℝ × V3 ℝ => pc j c q.1 q.2
  /-- the weight of a selected component is the inverse of its probability -/
  select : ∀ j ∈ Fs.map (·.1), ∀ p wi, V3.dot wi wi = 1 → V3.dot wi (vertex j p).geom.n ≠ 0 → ∀ u, 0 ≤ u → u < 1 → ∀ c w, (mat j).sampleComponent u (vertex j p).geom wi = some (c, w) → w * pc j c p wi = 1
  /-- all primitives with lights are in the table of lights -/
  listed : ∀ j L, W.lightAt j = some L → ∃ l < W.st.lights.length, j = node l
  /-- the camera is not a surface -/
  other : n ∉ Fs.map (·.1)
  /-- visibility depends on the positions -/
  place : ∀ a b c : SI, a.geom.p = b.geom.p → a.geom.infinite = false → b.geom.infinite = false → c.geom.infinite = false → Q.visible a c = Q.visible b c
  /-- two points of surfaces are visible from each other, if the ray from one meets the other -/
  sight : ∀ s ∈ Fs, ∀ t ∈ Fs, ∀ p q, Inside s.2 p → Inside t.2 q → V3.dot (triCross s.2) (q - p) ≠ 0 → V3.dot (triCross t.2) (q - p) ≠ 0 → (Q.visible (vertex s.1 p) (vertex t.1 q) = true ↔ Sees Q p t.1 q)

variable {W : World} {Q : Query} {n : Int} {cam : Camera} {Fs : List (Int × Tri)} {vertex : Int → V3 ℝ → SI} {mat : Int → Mat} {C : Int → Finset ℕ} {f : Int → ℕ → V3 ℝ → V3 ℝ → V3 ℝ → V3 ℝ}
  {P : Int → ℕ → V3 ℝ → V3 ℝ → V3 ℝ → ℝ} {pc : Int → ℕ → V3 ℝ → V3 ℝ → ℝ} {node : ℕ → Int} {M : ℕ → Aff ℝ} {sgn : V3 ℝ → Bool} {junk : V3 ℝ} {Ke : ℕ → V3 ℝ} {ts : ℕ → List Tri}

/-- The density of the points of a light. -/
noncomputable def lampDensity (W : World) (M : ℕ → Aff ℝ) (ts : ℕ → List Tri) (j : Int) : ℝ :=
  match W.lightAt j, Scene.lightIndexAt W.st j with
  | some _, some l => 1 / W.st.lights.length * (transformedInvA (ts l) (M l)).elim 0 id
  | _, _ => 0

/-- The emission. -/
noncomputable def lampEval (W : World) (vertex : Int → V3 ℝ → SI) (j : Int) (p d : V3 ℝ) : V3 ℝ :=
  match W.lightAt j with
  | some L => L.eval (vertex j p).geom d true
  | none => 0

/-- The density of the directions. -/
noncomputable def lampPdf (W : World) (vertex : Int → V3 ℝ → SI) (j : Int) (p d : V3 ℝ) : ℝ :=
  match W.lightAt j with
  | some _ => if V3.dot d (vertex j p).geom.n ≤ 0 then 0 else pdfCosine
  | none => 0

/-- The site of a scene. -/
noncomputable def siteOf (W : World) (Q : Query) (cam : Camera) (Fs : List (Int × Tri)) (vertex : Int → V3 ℝ → SI) (C : Int → Finset ℕ) (f : Int → ℕ → V3 ℝ → V3 ℝ → V3 ℝ → V3 ℝ)
    (P : Int → ℕ → V3 ℝ → V3 ℝ → V3 ℝ → ℝ) (pc : Int → ℕ → V3 ℝ → V3 ℝ → ℝ) (M : ℕ → Aff ℝ) (ts : ℕ → List Tri) (H : ℝ × ℝ → ℝ≥0∞) : Site where
  Q := Q
  Fs := Fs
  vertex := vertex
  C := C
  f := f
  P := P
  pc := pc
  eye := cam.position
  We d := (camPdfDirection cam d).elim 0 id
  film := onFilm W H 1 (0, 0)
  pA := lampDensity W M ts
  Le := lampEval W vertex
  PL := lampPdf W vertex

namespace PathScene
variable (h : PathScene W Q n cam Fs vertex mat C f P pc node M sgn junk Ke ts)

local notation "S" => siteOf W Q cam Fs vertex C f P pc M ts

include h

theorem invA {l : ℕ} (hl : l < W.st.lights.length) : ∃ p, transformedInvA (ts l) (M l) = some p ∧ 0 < p := by
  obtain ⟨hA, hM, _⟩ := h.lamps.size l hl
  refine ⟨1 / ((ts l).map triArea).sum / |(M l).det|, ?_, div_pos (one_div_pos.mpr hA) (abs_pos.mpr hM)⟩
  unfold transformedInvA Light.invA
  simp [divF, hA.ne', hM]

theorem light {l : ℕ} (hl : l < W.st.lights.length) : W.lightAt (node l) = some (Light.area sgn junk (Ke l) (ts l)) := h.lamps.table.light l hl

theorem density {l : ℕ} (hl : l < W.st.lights.length) {p : ℝ} (hp : transformedInvA (ts l) (M l) = some p) : lampDensity W M ts (node l) = 1 / W.st.lights.length * p := by
  unfold lampDensity
  rw [h.light hl, h.lamps.table.index l hl]
  dsimp only
  rw [hp]; rfl

theorem evalAt {l : ℕ} (hl : l < W.st.lights.length) (p d : V3 ℝ) : lampEval W vertex (node l) p d = areaEval (Ke l) (vertex (node l) p).geom d := by
  unfold lampEval
  rw [h.light hl]; rfl

theorem camera : ∃ We : V3 ℝ → ℝ, Measurable We ∧ (∀ H, (S H).We = We) ∧ ∀ d, camPdfDirection cam d = some (We d) ∧ camEval cam d = some (V3.all (We d)) ∧ 0 ≤ We d := by
  obtain ⟨We, hm, hw⟩ := cam_measurable h.matte.proper
  refine ⟨We, hm, fun H => funext fun d => ?_, hw⟩
  show (camPdfDirection cam d).elim 0 id = We d
  rw [(hw d).1]; rfl

theorem sound {H : ℝ × ℝ → ℝ≥0∞} (hH : Measurable H) : (S H).Sound where
  faceted := h.matte.faceted
  flat := h.flat
  normal := h.matte.normal
  f := h.matte.measurable
  P := h.pdf_measurable
  pc := h.component_measurable
  We := by obtain ⟨We, hm, e, _⟩ := h.camera; rw [e]; exact hm
  film := measurable_onCamera W n cam h.matte.camera h.matte.cameraAt H hH (0, 0)
  Le j := by
    show Measurable fun q : V3 ℝ × V3 ℝ => lampEval W vertex j q.1 q.2
    cases hL : W.lightAt j with
    | none => simp only [lampEval, hL]; exact measurable_const
    | some L =>
      obtain ⟨l, hl, rfl⟩ := h.listed j L hL
      simp_rw [h.evalAt hl]
      unfold areaEval
      exact Measurable.ite (measurableSet_le (measurable_dot3 measurable_snd ((h.matte.normal _).comp measurable_fst)) measurable_const) measurable_const measurable_const
  PL j := by
    show Measurable fun q : V3 ℝ × V3 ℝ => lampPdf W vertex j q.1 q.2
    cases hL : W.lightAt j with
    | none => simp only [lampPdf, hL]; exact measurable_const
    | some L =>
      simp only [lampPdf, hL]
      exact Measurable.ite (measurableSet_le (measurable_dot3 measurable_snd ((h.matte.normal _).comp measurable_fst)) measurable_const) measurable_const measurable_const

theorem works (H : ℝ × ℝ → ℝ≥0∞) : (S H).Works W n cam mat where
  matte := h.matte
  pdf := h.pdf
  component := h.component
  select := h.select

theorem seer (H : ℝ × ℝ → ℝ≥0∞) : (S H).Camera' W n cam := by
  obtain ⟨We, _, e, hw⟩ := h.camera
  exact ⟨rfl, fun d => by rw [e]; exact (hw d).2.1, fun d => by rw [e]; exact (hw d).2.2⟩

theorem lamped (H : ℝ × ℝ → ℝ≥0∞) : (S H).Lamped W node M sgn junk Ke ts where
  lamps := h.lamps
  pA l hl p hp := h.density hl hp
  none j hj := by
    show lampDensity W M ts j = 0
    unfold lampDensity
    rw [hj]
  PL l hl p d := by
    show lampPdf W vertex (node l) p d = _
    unfold lampPdf
    rw [h.light hl]; rfl

theorem told (H : ℝ × ℝ → ℝ≥0∞) : (S H).Told W n cam := by
  obtain ⟨We, _, e, hw⟩ := h.camera
  have hpr : ∀ j p, (vertex j p).primitive = j := fun j p => (h.matte.faceted.at_point j p).1
  have hmat : ∀ j ∈ Fs.map (·.1), ∀ p, W.materialAt (vertex j p).primitive = some (mat j) := fun j hj p => by rw [hpr]; exact (h.matte.surface j hj p).2.2
  have hk : ∀ j ∈ Fs.map (·.1), ∀ p, (vertex j p).kind = .surface := fun j hj p => (h.matte.surface j hj p).1
  exact {
    position := rfl
    cameraAt := h.matte.cameraAt
    camera := fun d => by rw [e]; exact ⟨(hw d).2.1, (hw d).1⟩
    We0 := fun d => by rw [e]; exact (hw d).2.2
    surface := hk
    eval := fun j hj c hc p wi wo a b hg dir ed => by
      show evalContrbDirection W (vertex j p) wi wo c dir ed = _
      unfold evalContrbDirection
      rw [hk j hj p]
      dsimp only
      rw [hmat j hj p, Option.bind_some, (h.matte.eval j hj c hc p wi wo a b hg).2 dir ed]
      rfl
    nonneg := fun j hj c hc p wi wo a b hg => (h.matte.eval j hj c hc p wi wo a b hg).1
    reciprocal := h.matte.reciprocal
    pdf := fun j hj c hc p wi wo a b hg => by
      show pdfDirection W (vertex j p) wi wo c false = _
      unfold pdfDirection
      rw [hk j hj p]
      dsimp only
      rw [hmat j hj p, Option.bind_some]
      exact h.pdf j hj c hc p wi wo a b hg
    component := fun j hj c hc p wi a hg => by
      show pdfComponent W (vertex j p) wi c = _
      unfold pdfComponent
      rw [hk j hj p]
      dsimp only
      rw [hmat j hj p, Option.bind_some]
      exact (h.component j hj c hc p wi a hg).1
    plain := fun j hj c hc p => by
      show isSpecularComponent W (vertex j p) c = _
      unfold isSpecularComponent
      rw [hk j hj p]
      dsimp only
      rw [hmat j hj p, Option.bind_some]
      have h1 : V3.dot (vertex j p).geom.n (vertex j p).geom.n = 1 := (h.matte.surface j hj p).2.1.2.2.1
      exact (((h.matte.material j hj p _ h1 (by rw [h1]; exact one_ne_zero)).2 c hc).1).kind
    lamp := fun v z hv L hL => by
      obtain ⟨l, hl, hz⟩ := h.listed z.1 L hL
      have hL' := h.light hl
      rw [← hz, hL] at hL'
      cases hL'
      obtain ⟨p, hp, _⟩ := h.invA hl
      refine ⟨fun wo ed => ?_, fun wo => ?_, ?_, rfl, rfl⟩
      · show areaEval (Ke l) v.sp.geom wo = lampEval W vertex z.1 z.2 wo
        rw [hz, h.evalAt hl, ← hz]
        unfold areaEval
        rw [hv.n]; rfl
      · show some _ = some (lampPdf W vertex z.1 z.2 wo)
        unfold lampPdf
        rw [hL, hv.n]; rfl
      · show pdfPosition W v.sp = some (lampDensity W M ts z.1)
        unfold pdfPosition
        rw [hv.kind]
        dsimp only
        rw [hv.primitive]
        rw [hz, h.density hl hp]
        have hn : ¬ W.st.lights.length = 0 := by have := h.lamps.table.pos; omega
        have hp' : (Light.area sgn junk (Ke l) (ts l)).pdfPosition v.sp.geom (M l) = some p := hp
        simp only [pdfOnLight, h.lamps.table.index l hl, h.lamps.table.entry l hl, h.light hl, hp', Scene.pdfLightSelection, if_neg hn, Option.bind_eq_bind, Option.bind_some]
        rfl }

theorem stage (H : ℝ × ℝ → ℝ≥0∞) : (S H).Stage W n H := by
  obtain ⟨We, _, e, hw⟩ := h.camera
  exact {
    camera := h.matte.camera
    other := h.other
    film := fun d => rfl
    raster := fun d hd => by
      rw [e] at hd
      unfold rasterAt
      rw [h.matte.camera, Option.bind_some, h.matte.cameraAt, Option.map_some]
      cases hr : rasterPosition cam d with
      | some r => exact ⟨r, rfl⟩
      | none =>
        have := (hw d).1
        unfold camPdfDirection at this
        rw [hr] at this
        exact absurd (Option.some.inj this).symm hd
    place := h.place
    sight := h.sight
    pick := fun j hj c hc p wi a b => (h.component j hj c hc p wi a b).2
    light := fun j _ hp => by
      cases hL : W.lightAt j with
      | some L => exact ⟨L, rfl⟩
      | none =>
        have := (h.lamped H).none j hL
        rw [this] at hp
        exact absurd hp (lt_irrefl _)
    dark := fun j hL p d => by
      show lampEval W vertex j p d = 0
      unfold lampEval
      rw [hL]
    Le0 := fun j p d => by
      show NonNeg (lampEval W vertex j p d)
      cases hL : W.lightAt j with
      | none => unfold lampEval; rw [hL]; exact ⟨le_rfl, le_rfl, le_rfl⟩
      | some L =>
        obtain ⟨l, hl, rfl⟩ := h.listed j L hL
        rw [h.evalAt hl]
        unfold areaEval
        split
        · exact ⟨le_rfl, le_rfl, le_rfl⟩
        · exact h.lamps.nonneg l hl }

theorem proper (H : ℝ × ℝ → ℝ≥0∞) : (S H).Proper := by
  obtain ⟨We, _, e, hw⟩ := h.camera
  have hA : ∀ j, 0 ≤ lampDensity W M ts j ∧ (∀ L, W.lightAt j = some L → 0 < lampDensity W M ts j) := fun j => by
    cases hL : W.lightAt j with
    | none =>
      refine ⟨?_, fun L hL => by cases hL⟩
      unfold lampDensity
      rw [hL]
    | some L =>
      obtain ⟨l, hl, rfl⟩ := h.listed j L hL
      obtain ⟨p, hp, hp0⟩ := h.invA hl
      rw [h.density hl hp]
      have : (0 : ℝ) < W.st.lights.length := by exact_mod_cast h.lamps.table.pos
      have := mul_pos (one_div_pos.mpr this) hp0
      exact ⟨this.le, fun _ _ => this⟩
  have hc0 : 0 < pdfCosine := one_div_pos.mpr Real.pi_pos
  exact {
    We := fun d => by rw [e]; exact (hw d).2.2
    P := fun j hj c hc p wi wo a b hg => by
      obtain ⟨P', F, h1, h2, h3, h4⟩ := (((h.matte.material j hj p wi a hg).2 c hc).1).covers .EL wo b
      have h1' := h.pdf j hj c hc p wi wo a b hg
      rw [h1] at h1'
      have h2' := (h.matte.eval j hj c hc p wi wo a b hg).2 .EL false
      rw [h2] at h2'
      cases h1'; cases h2'
      exact ⟨h3, fun hf => lt_of_le_of_ne h3 fun e => hf (h4 e.symm)⟩
    pc := fun j hj c hc p wi a b => (h.component j hj c hc p wi a b).2
    sum := fun j hj p wi a b => by
      have hs := (h.matte.material j hj p wi a b).1.sum fun c => ENNReal.ofReal (pc j c p wi)
      have h1 : ∫⁻ u, compWorth (fun c => ENNReal.ofReal (pc j c p wi)) ((mat j).sampleComponent u (vertex j p).geom wi) ∂uniform1 = 1 := by
        rw [lintegral_congr_ae (g := fun _ => 1)]
        · rw [lintegral_const, one_mul]
          unfold uniform1
          simp
        · refine uniform1_ae.mono fun u hu => ?_
          obtain ⟨c, w, hcw, hc, _⟩ := (h.matte.material j hj p wi a b).1.pick u hu.1 hu.2
          have hsel := h.select j hj p wi a b u hu.1 hu.2 c w hcw
          beta_reduce
          rw [hcw]
          simp only [compWorth]
          rw [← ENNReal.ofReal_mul' (h.component j hj c hc p wi a b).2.le, hsel, ENNReal.ofReal_one]
      rw [h1, ← ENNReal.ofReal_sum_of_nonneg fun c hc => (h.component j hj c hc p wi a b).2.le] at hs
      show ∑ c ∈ C j, pc j c p wi = 1
      have := congrArg ENNReal.toReal hs
      rw [ENNReal.toReal_ofReal (Finset.sum_nonneg fun c hc => (h.component j hj c hc p wi a b).2.le)] at this
      simpa using this.symm
    pA := fun j _ => (hA j).1
    PL := fun j _ p d => by
      show 0 ≤ lampPdf W vertex j p d
      unfold lampPdf
      split
      · split
        · exact le_rfl
        · exact hc0.le
      · exact le_rfl
    lit := fun j _ p d hd => by
      change lampEval W vertex j p d ≠ 0 at hd
      show 0 < lampDensity W M ts j ∧ 0 < lampPdf W vertex j p d
      cases hL : W.lightAt j with
      | none => exact absurd (by unfold lampEval; rw [hL]) hd
      | some L =>
        refine ⟨(hA j).2 L hL, ?_⟩
        obtain ⟨l, hl, rfl⟩ := h.listed j L hL
        rw [h.evalAt hl] at hd
        unfold areaEval at hd
        unfold lampPdf
        rw [hL]
        dsimp only
        split_ifs at hd with hc
        · exact absurd rfl hd
        · rw [if_neg hc]; exact hc0 }

end PathScene
end LM.Transport
