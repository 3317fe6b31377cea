import Verif.Props.C88_Run
import Verif.Props.C87_Bdpt
/-
  C88: the samplers of a scene of triangles drive both renderers (Props/C88_Run.lean), for all random numbers in [0,1).
-/
namespace LM.Transport
open MeasureTheory LM LM.Surface LM.Material LM.Light LM.MathF LM.Path LM.Render LM.Solid LM.Chain Set
open scoped ENNReal

/-- Random numbers in [0,1). -/
def _root_.LM.Render.Rnd.Valid (r : Rnd) : Prop := r.light.Valid ∧ r.dir.Valid ∧ 0 ≤ r.comp ∧ r.comp < 1

namespace Site
variable {S : Site} {W : World} {n : Int} {cam : Camera} {H : ℝ × ℝ → ℝ≥0∞} {mat : Int → Mat}
variable {node : ℕ → Int} {M : ℕ → Aff ℝ} {sgn : V3 ℝ → Bool} {junk : V3 ℝ} {Ke : ℕ → V3 ℝ} {ts : ℕ → List Tri}

/-- The density of the reverse of a sampled direction is defined. -/
def Back (S : Site) (W : World) : Prop := ∀ j ∈ S.Fs.map (·.1), ∀ c ∈ S.C j, ∀ p wi wo, V3.dot wi wi = 1 → V3.dot wo wo = 1 → V3.dot wi (S.vertex j p).geom.n ≠ 0 → 0 < S.P j c p wi wo → ∃ q, pdfDirection W (S.vertex j p) wo wi c false = some q

/-- Vertices at which directions can be sampled. -/
def Ready (S : Site) (v : Vert) (wi : V3 ℝ) : Prop := ∃ y : Node, v = S.toVert y ∧ S.Fit y ∧ V3.dot wi wi = 1 ∧ V3.dot wi (S.nrm y.1) ≠ 0

theorem Works.turn (h : S.Sound) (R : S.Works W n cam mat) (T : S.Told W n cam) (K : S.Back W) {u : DirU} (hu : u.Valid) {v : Vert} {wi wo C : V3 ℝ} {dir : TransDir} (hv : S.Ready v wi) (hs : sampleDirection W u v.sp wi v.comp dir = .ok wo C) :
    V3.dot wo wo = 1 ∧ ∃ pd f rev, pdfDirection W v.sp wi wo v.comp false = some pd ∧ pdfDirection W v.sp wo wi v.comp false = some rev ∧ evalContrbDirection W v.sp wi wo v.comp dir false = some f ∧ (f = 0 → C = 0) ∧ (f ≠ 0 → pd ≠ 0 ∧ C = (1 / pd) • f) := by
  obtain ⟨y, rfl, hy, hu1, hng⟩ := hv
  obtain ⟨hk, _, hm⟩ := R.matte.surface y.1.1 hy.1 y.1.2
  have hm' : W.materialAt (S.vertex y.1.1 y.1.2).primitive = some (mat y.1.1) := by rw [(h.faceted.at_point _ _).1]; exact hm
  obtain ⟨hsm, -⟩ := (R.matte.material y.1.1 hy.1 y.1.2 wi hu1 hng).2 y.2 hy.2
  have hest := hsm.estimates u dir hu
  change sampleDirection W u (S.vertex y.1.1 y.1.2) wi y.2 dir = .ok wo C at hs
  rw [sample_at hk hm'] at hs
  cases e : (mat y.1.1).sampleDirection u (S.vertex y.1.1 y.1.2).geom wi y.2 dir with
  | undef => rw [e] at hs; cases hs
  | fail => rw [e] at hs; cases hs
  | ok d C' =>
    rw [e] at hs hest
    obtain ⟨hun, q, F, eq, eF, hq, hC⟩ := hest
    obtain ⟨rfl, rfl⟩ : d = wo ∧ shadingNormalCorrection (S.vertex y.1.1 y.1.2).geom wi d dir • C' = C := by
      injection hs with h1 h2; exact ⟨h1, h2⟩
    have hP := R.pdf y.1.1 hy.1 y.2 hy.2 y.1.2 wi d hu1 hun hng
    rw [eq] at hP
    cases hP
    have hF := (R.matte.eval y.1.1 hy.1 y.2 hy.2 y.1.2 wi d hu1 hun hng).2 dir false
    rw [eF] at hF
    cases hF
    obtain ⟨rev, hrev⟩ := K y.1.1 hy.1 y.2 hy.2 y.1.2 wi d hu1 hun hng hq
    have hC' : C' = (1 / S.P y.1.1 y.2 y.1.2 wi d) • S.f y.1.1 y.2 y.1.2 wi d := by rw [← hC, smul_smul, one_div_mul_cancel hq.ne', one_smul]
    have hsw : shadingNormalCorrection (S.vertex y.1.1 y.1.2).geom wi d dir • C' = (1 / S.P y.1.1 y.2 y.1.2 wi d) • (shadingNormalCorrection (S.vertex y.1.1 y.1.2).geom wi d dir • S.f y.1.1 y.2 y.1.2 wi d) := by
      rw [hC', smul_smul, smul_smul, mul_comm]
    refine ⟨hun, _, _, rev, T.pdf y.1.1 hy.1 y.2 hy.2 y.1.2 wi d hu1 hun hng, hrev, T.eval y.1.1 hy.1 y.2 hy.2 y.1.2 wi d hu1 hun hng dir false, fun h0 => ?_, fun _ => ⟨hq.ne', hsw⟩⟩
    rw [hsw, h0, smul_zero]

theorem Works.landed (h : S.Sound) (R : S.Works W n cam mat) (T : S.Told W n cam) {b : ℝ} (hb : 0 ≤ b ∧ b < 1) {o d : V3 ℝ} (hd : V3.dot d d = 1) {x : SI} (hx : S.Q.isect o d = some x) :
    x.geom.degenerated = false ∧ x.geom.infinite = false ∧ (∃ s : ℝ, 0 < s ∧ x.geom.p = o + s • d) ∧
      ∃ c wc pc, sampleComponent W b x (-d) = some (c, wc) ∧ pdfComponent W x (-d) c = some pc ∧ pc ≠ 0 ∧ wc = 1 / pc ∧ S.Ready ⟨x, c⟩ (-d) := by
  have hsame := h.faceted.same o d x hd hx
  have hah := h.faceted.ahead o d x hd hx
  obtain ⟨hj, hg⟩ := R.matte.face o d x hd hx
  obtain ⟨hpr, hpp, hinf, hdeg⟩ := h.faceted.at_point x.primitive x.geom.p
  set j := x.primitive with hjd
  set p := x.geom.p with hpd
  rw [← hsame] at hinf hdeg
  have hneg : V3.dot (-d) (-d) = 1 := by simpa [V3.dot] using hd
  have hng : V3.dot (-d) (S.vertex j p).geom.n ≠ 0 := by
    rw [← hsame, V3.dot_comm, V3.dot_neg_right, V3.dot_comm]; exact neg_ne_zero.mpr hg
  obtain ⟨hk, _, hm⟩ := R.matte.surface j hj p
  obtain ⟨hok, -⟩ := R.matte.material j hj p (-d) hneg hng
  obtain ⟨c, w, e, hc, _⟩ := hok.pick b hb.1 hb.2
  have hw := R.select j hj p (-d) hneg hng b hb.1 hb.2 c w e
  have hpc := (R.component j hj c hc p (-d) hneg hng).2
  have hsc : sampleComponent W b (S.vertex j p) (-d) = some (c, w) := by
    simp only [sampleComponent, hk, hpr, hm, Option.bind_some, e]
  refine ⟨hdeg, hinf, hah, c, w, S.pc j c p (-d), by rw [hsame]; exact hsc, by rw [hsame]; exact T.component j hj c hc p (-d) hneg hng, hpc.ne', by rw [eq_div_iff hpc.ne']; exact hw, ⟨((j, p), c), ?_, ⟨hj, hc⟩, hneg, hng⟩⟩
  rw [hsame]; rfl

theorem Works.driveEye (h : S.Sound) (R : S.Works W n cam mat) (T : S.Told W n cam) (K : S.Back W) {N : ℕ} {r : ℕ → Rnd} (hr : ∀ m < N, (r m).Valid) : Drive W S.Q N .EL .camera r S.Ready where
  start sp wo C hN hs := by
    obtain ⟨d, hp, hd, ht⟩ := C47_primary cam R.matte.proper (r 0).light.ud0 (r 0).light.ud1
    have hv := (hr 0 (by omega)).1.2.2.2.2
    have hras := C47_raster cam R.matte.proper d _ _ ht
    rw [if_pos ⟨⟨hv.1.1, hv.1.2.le⟩, ⟨hv.2.1, hv.2.2.le⟩⟩] at hras
    have e0 : samplePrimaryRay W (r 0).light .EL = .ok (camVertex W n cam) d (V3.all 1) := by
      simp only [samplePrimaryRay, R.matte.camera, R.matte.cameraAt, camSampleRay, RaySampleU.toLight, hp, wrap, camVertex, one_smul]
    rw [e0] at hs
    cases hs
    have hWe : S.We wo ≠ 0 := by
      obtain ⟨d', p, e1, _, hp', hp0, _⟩ := C46_camera_ray cam R.matte.proper W.junk (r 0).light.toLight (hr 0 (by omega)).1.2
      have : d' = wo := by
        simp only [camSampleRay, RaySampleU.toLight, hp] at e1
        injection e1 with _ e2 _
        exact e2.symm
      subst this
      rw [(T.camera d').2] at hp'
      cases hp'
      exact hp0.ne'
    refine ⟨rfl, hd, rfl, rfl, by simp [isConnectableEndpoint, camVertex, T.cameraAt], 1, S.We wo, V3.all (S.We wo), by simp [pdfPosition, camVertex, T.cameraAt], one_ne_zero, by simp [pdfDirection, camVertex, T.cameraAt, T.camera], by simp [evalContrbDirection, camVertex, T.cameraAt, T.camera], fun h0 => ?_, fun _ => ⟨hWe, ?_⟩⟩
    · have := congrArg V3.x h0
      exact absurd (by simpa [V3.all] using this) hWe
    · ext <;> simp [V3.all, hWe]
  turn m v wi wo C hm hv hs := R.turn h T K (hr m (by omega)).2.1 hv hs
  hit m o d x hm hd hx := R.landed h T (hr m (by omega)).2.2 hd hx

theorem Works.driveLight (h : S.Sound) (R : S.Works W n cam mat) (B : S.Lamped W node M sgn junk Ke ts) (T : S.Told W n cam) (K : S.Back W) {N : ℕ} {r : ℕ → Rnd} (hr : ∀ m < N, (r m).Valid) : Drive W S.Q N .LE .light r S.Ready where
  start sp wo C hN hs := by
    have hv := (hr 0 (by omega)).1
    have hnR : (0 : ℝ) < W.st.lights.length := by exact_mod_cast B.lamps.table.pos
    obtain ⟨l, hl, _, e⟩ := B.lamps.table.select _ hv.1.1 hv.1.2
    obtain ⟨hA, hM, hS⟩ := B.lamps.size l hl
    obtain ⟨pA, hp, hp0, -⟩ := transformedInvA_pos (ts l) (M l) hA hM
    obtain ⟨g, wo', C', p, e1, hun, hpr, hpp, hC⟩ := (C46_area sgn junk (Ke l) (ts l) (M l) hA hM).1 _ hv.2
    obtain ⟨g', t', e', _, _, hinf, _⟩ := sampleOnMesh_spec sgn junk (ts l) _ (M l) hv.2 hA hM
    have hgg : g' = g := by
      have e2 := e1
      simp only [Light.area, e', ray] at e2
      rw [hp] at e2
      simp only [Option.map_some, divV] at e2
      split at e2
      · cases e2
      · next h => split at h <;> cases h; injection e2
    subst hgg
    have e0 : samplePrimaryRay W (r 0).light .LE = .ok ⟨.light, node l, g'⟩ wo' ((W.st.lights.length : ℝ) • C') := by
      simp only [samplePrimaryRay, sampleFromLight, e, B.lamps.table.entry l hl, B.lamps.table.light l hl, if_true, one_div, inv_inv, e1, wrap]
    rw [e0] at hs
    obtain ⟨rfl, rfl, rfl⟩ : (⟨.light, node l, g'⟩ : SI) = sp ∧ wo' = wo ∧ (W.st.lights.length : ℝ) • C' = C := by
      injection hs with h1 h2 h3; exact ⟨h1, h2, h3⟩
    have hpdf : p = pA * (if V3.dot wo' g'.n ≤ 0 then 0 else pdfCosine) := by
      have : (Light.area sgn junk (Ke l) (ts l)).pdfRay g' wo' (M l) false = some (pA * (if V3.dot wo' g'.n ≤ 0 then 0 else pdfCosine)) := by simp [Light.area, hp]
      rw [this] at hpr; cases hpr; rfl
    have hne : ¬ W.st.lights.length = 0 := by have := B.lamps.table.pos; omega
    have hpos : (Light.area sgn junk (Ke l) (ts l)).pdfPosition g' (M l) = some pA := hp
    have hpd : (if V3.dot wo' g'.n ≤ 0 then 0 else pdfCosine) ≠ 0 := fun c => by rw [hpdf, c, mul_zero] at hpp; exact lt_irrefl _ hpp
    have hCe : (W.st.lights.length : ℝ) • C' = (1 / (1 / W.st.lights.length * pA)) • ((1 / (if V3.dot wo' g'.n ≤ 0 then 0 else pdfCosine)) • areaEval (Ke l) g' wo') := by
      have : areaEval (Ke l) g' wo' = p • C' := hC.symm
      rw [this, hpdf, smul_smul, smul_smul]
      congr 1
      field_simp
    refine ⟨rfl, hun, hinf, rfl, by simp [isConnectableEndpoint, B.lamps.table.light l hl, Light.area], 1 / W.st.lights.length * pA, (if V3.dot wo' g'.n ≤ 0 then 0 else pdfCosine), areaEval (Ke l) g' wo', ?_, (by positivity), ?_, ?_, fun h0 => ?_, fun _ => ⟨hpd, hCe⟩⟩
    · simp only [pdfPosition, pdfOnLight, B.lamps.table.index l hl, B.lamps.table.entry l hl, B.lamps.table.light l hl, hpos, Scene.pdfLightSelection, if_neg hne, Option.bind_eq_bind, Option.bind_some]
      rfl
    · simp [pdfDirection, B.lamps.table.light l hl, Light.area]
    · simp [evalContrbDirection, B.lamps.table.light l hl, Light.area]
    · rw [hCe, h0, smul_zero, smul_zero]
  turn m v wi wo C hm hv hs := R.turn h T K (hr m (by omega)).2.1 hv hs
  hit m o d x hm hd hx := R.landed h T (hr m (by omega)).2.2 hd hx

end Site
end LM.Transport
