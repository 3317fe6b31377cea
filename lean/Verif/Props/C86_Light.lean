import Verif.Props.C86_Film
/-
  C86: the light tracer computes the image of the path tracer, except for the lights that the camera sees directly.
-/
namespace LM.Transport
open MeasureTheory LM LM.Surface LM.Material LM.Light LM.MathF LM.Path LM.Render LM.Solid Set
open scoped ENNReal

variable {W : World} {Q : Query} {n : Int} {cam : Camera} {Fs : List (Int × Tri)} {vertex : Int → V3 ℝ → SI} {m : Int → Mat} {C : Int → Finset ℕ} {f : Int → ℕ → V3 ℝ → V3 ℝ → V3 ℝ → V3 ℝ}

/-- The lights of a scene of triangles: area lights, the l-th on the primitive `node l`, a mesh `ts l` under the transform `M l`, which emits `Ke l` to its front. -/
structure Lamps (W : World) (Fs : List (Int × Tri)) (vertex : Int → V3 ℝ → SI) (node : ℕ → Int) (M : ℕ → Aff ℝ) (sgn : V3 ℝ → Bool) (junk : V3 ℝ) (Ke : ℕ → V3 ℝ) (ts : ℕ → List Tri) : Prop where
  table : LightTable W node M fun l => area sgn junk (Ke l) (ts l)
  size : ∀ l < W.st.lights.length, 0 < ((ts l).map triArea).sum ∧ (M l).det ≠ 0 ∧ ScalesArea (M l) (ts l)
  nonneg : ∀ l < W.st.lights.length, NonNeg (Ke l)
  /-- every primitive with a light is in the table of lights -/
  only : ∀ j ∈ Fs.map (·.1), ∀ L, W.lightAt j = some L → ∃ l < W.st.lights.length, j = node l
  /-- the triangles of a light are surfaces of the scene -/
  faces : ∀ l < W.st.lights.length, Fs.filter (·.1 = node l) = (ts l).map fun t => (node l, triMap (M l) t)
  /-- the lights are not smoothed by shading normals -/
  flat : ∀ l < W.st.lights.length, ∀ t ∈ ts l, ∀ p, Inside (triMap (M l) t) p → (vertex (node l) p).geom.n = frontNormal (M l) t

variable {node : ℕ → Int} {M : ℕ → Aff ℝ} {sgn : V3 ℝ → Bool} {junk : V3 ℝ} {Ke : ℕ → V3 ℝ} {ts : ℕ → List Tri}

/-- The emitted light. -/
noncomputable def emission (W : World) (Fs : List (Int × Tri)) (vertex : Int → V3 ℝ → SI) (i : Fin 3) (x : Spot) (w : V3 ℝ) : ℝ≥0∞ := if x.1 ∈ Fs.map (·.1) then emitted W i (vertex x.1 x.2) w else 0

theorem emission_at (h : Lamps W Fs vertex node M sgn junk Ke ts) (hpr : ∀ j p, (vertex j p).primitive = j) (i : Fin 3) {l : ℕ} (hl : l < W.st.lights.length) (hj : node l ∈ Fs.map (·.1)) (p w : V3 ℝ) :
    emission W Fs vertex i (node l, p) w = front i (Ke l) (vertex (node l) p).geom.n w := by
  unfold emission
  rw [if_pos hj]
  unfold emitted
  dsimp only
  rw [hpr, h.table.light l hl]
  rfl

theorem emission_none (hpr : ∀ j p, (vertex j p).primitive = j) (i : Fin 3) {j : Int} (hn : W.lightAt j = none) (p w : V3 ℝ) : emission W Fs vertex i (j, p) w = 0 := by
  unfold emission
  split_ifs
  · unfold emitted
    dsimp only
    rw [hpr, hn]
  · rfl

theorem Lamps.measurableOf (hf : Faceted Q Fs vertex) (hn : ∀ j, Measurable fun p => (vertex j p).geom.n) (h : Lamps W Fs vertex node M sgn junk Ke ts) (i : Fin 3) : Adjoint.Meas (emission W Fs vertex i) := by
  refine measurable_spot fun j => ?_
  have hpr : ∀ j p, (vertex j p).primitive = j := fun j p => (hf.at_point j p).1
  by_cases hj : j ∈ Fs.map (·.1)
  · cases hL : W.lightAt j with
    | none => simp_rw [emission_none hpr i hL]; exact measurable_const
    | some L =>
      obtain ⟨l, hl, rfl⟩ := h.only j hj L hL
      simp_rw [emission_at h hpr i hl hj]
      exact measurable_front' i (Ke l) ((hn (node l)).comp measurable_fst) measurable_snd
  · have : ∀ q : V3 ℝ × V3 ℝ, emission W Fs vertex i (j, q.1) q.2 = 0 := fun q => if_neg hj
    simp_rw [this]
    exact measurable_const

theorem Lamps.measurable (hm : Matte W Q n cam Fs vertex m C f) (h : Lamps W Fs vertex node M sgn junk Ke ts) (i : Fin 3) : Adjoint.Meas (emission W Fs vertex i) := h.measurableOf hm.faceted hm.normal i

theorem front_slant {M : Aff ℝ} (hM : M.det ≠ 0) {t : Tri} (ht : 0 < twiceArea (triMap M t)) (d : V3 ℝ) : |V3.dot (dirOf (triCross (triMap M t))) d| = |V3.dot (frontNormal M t) d| := by
  obtain ⟨k, hk, hk1⟩ := frontNormal_par M hM t
  have h1 := hk1 ht
  rw [hk]
  unfold dirOf
  rw [V3.dot_comm, V3.dot_smul_right, V3.dot_comm _ d, V3.dot_smul_right, abs_mul, abs_mul]
  congr 1
  have e : twiceArea (triMap M t) = Real.sqrt (V3.dot (triCross (triMap M t)) (triCross (triMap M t))) := rfl
  rw [← e, abs_of_pos (one_div_pos.mpr ht)]
  field_simp
  linarith

theorem sum_by_node {α : Type} (l : List (Int × α)) (X : Int × α → ℝ≥0∞) (N : ℕ) (node : ℕ → Int) (hinj : ∀ a < N, ∀ b < N, node a = node b → a = b) (hX : ∀ g ∈ l, (∀ a < N, g.1 ≠ node a) → X g = 0) :
    (l.map X).sum = ∑ a ∈ Finset.range N, ((l.filter (·.1 = node a)).map X).sum := by
  induction l with
  | nil => simp
  | cons g l ih =>
    have ih := ih fun g hg => hX g (by simp [hg])
    rw [List.map_cons, List.sum_cons, ih]
    by_cases hg : ∃ a < N, g.1 = node a
    · obtain ⟨a, ha, e⟩ := hg
      have e1 : ∀ b ∈ Finset.range N, (((g :: l).filter (·.1 = node b)).map X).sum = (if b = a then X g else 0) + ((l.filter (·.1 = node b)).map X).sum := fun b hb => by
        by_cases hb' : b = a
        · subst hb'; simp [e]
        · have : g.1 ≠ node b := fun hc => hb' (hinj b (Finset.mem_range.mp hb) a ha (hc.symm.trans e))
          simp [this, hb']
      rw [Finset.sum_congr rfl e1, Finset.sum_add_distrib]
      simp [ha]
    · push_neg at hg
      rw [hX g (by simp) hg, zero_add]
      refine Finset.sum_congr rfl fun b hb => ?_
      have := hg b (Finset.mem_range.mp hb)
      simp [this]

theorem _root_.LM.Adjoint.Meas.pin {X Y D : Type} [MeasurableSpace X] [MeasurableSpace Y] [MeasurableSpace D] {F : X × Y → D → ℝ≥0∞} (hF : Adjoint.Meas F) (a : X) : Measurable fun q : Y × D => F (a, q.1) q.2 :=
  hF.comp ((measurable_const.prodMk measurable_fst).prodMk measurable_snd)

/-- The rays of the lights carry the light that they emit. -/
theorem Lamps.rays (hm : Matte W Q n cam Fs vertex m C f) (h : Lamps W Fs vertex node M sgn junk Ke ts) (i : Fin 3) {F : Spot → V3 ℝ → ℝ≥0∞} (hF : Adjoint.Meas F) (hF0 : ∀ j j' p d, F (j, p) d = F (j', p) d) :
    averageLight (fun u => rayWorth i (fun sp wo => F (0, sp.geom.p) wo) (samplePrimaryRay W u .LE)) = Adjoint.pair (surf Fs) solidAngle (slant vertex) (emission W Fs vertex i) F := by
  have hpr : ∀ j p, (vertex j p).primitive = j := fun j p => (hm.faceted.at_point j p).1
  have hE := h.measurable hm i
  have hsl := hm.faceted.measurable_slant
  have hall : Adjoint.Meas fun (x : Spot) (d : V3 ℝ) => slant vertex x d * (emission W Fs vertex i x d * F x d) := hsl.mul (hE.mul hF)
  rw [rays_average h.table]
  unfold Adjoint.pair
  rw [lintegral_surf hall.lintegral_prod_right']
  rw [sum_by_node Fs _ W.st.lights.length node]
  · refine Finset.sum_congr rfl fun l hl => ?_
    have hl := Finset.mem_range.mp hl
    obtain ⟨hA, hM, hS⟩ := h.size l hl
    have hΦ : Measurable fun q : V3 ℝ × V3 ℝ => F (0, q.1) q.2 := hF.pin 0
    have := area_emission sgn junk (Ke l) (ts l) (M l) hA hM hS i (Φ := fun p d => F (0, p) d) hΦ
    rw [this, h.faces l hl, List.map_map]
    refine congrArg List.sum (List.map_congr_left fun t ht => ?_)
    have hg : (node l, triMap (M l) t) ∈ Fs := by
      have : (node l, triMap (M l) t) ∈ Fs.filter (·.1 = node l) := by rw [h.faces l hl]; exact List.mem_map.mpr ⟨t, ht, rfl⟩
      exact (List.mem_filter.mp this).1
    have hj : node l ∈ Fs.map (·.1) := List.mem_map.mpr ⟨_, hg, rfl⟩
    show _ = ∫⁻ p, ∫⁻ d, slant vertex (node l, p) d * (emission W Fs vertex i (node l, p) d * F (node l, p) d) ∂solidAngle ∂triMeasure (triMap (M l) t)
    refine lintegral_congr_ae ((inside_ae (triMap (M l) t)).mono fun p hp => lintegral_congr fun d => ?_)
    have e := hm.faceted.slant_eq hg hp d
    have e1 := emission_at h hpr i hl hj p d
    have h0 : 0 < twiceArea (triMap (M l) t) := hm.faceted.area (node l, triMap (M l) t) hg
    have e2 := front_slant (t := t) hM h0 d
    have e3 := hF0 0 (node l) p d
    rw [h.flat l hl t ht p hp] at e1
    dsimp only at e
    rw [e, e1, e2, e3]
  · intro a ha b hb e
    have h1 := h.table.index a ha
    have h2 := h.table.index b hb
    rw [e, h2] at h1
    exact (Option.some.inj h1).symm
  · intro g hg hn
    have hL : W.lightAt g.1 = none := by
      cases hL : W.lightAt g.1 with
      | none => rfl
      | some L =>
        obtain ⟨l, hl, e⟩ := h.only g.1 (List.mem_map.mpr ⟨g, hg, rfl⟩) L hL
        exact absurd e (hn l hl)
    dsimp only
    simp_rw [emission_none hpr i hL]
    simp

/-! ### The first ray -/

theorem cosine_null {u v n : V3 ℝ} (h : Frame u v n) {P : V3 ℝ → Prop} (hP : ∀ᵐ d ∂solidAngle, P d) : ∀ᵐ q ∂uniform2, P (lin u v n (sampleCosineWeighted q.1 q.2)) := by
  set N := toMeasurable solidAngle {d | ¬ P d} with hN
  have hN0 : solidAngle N = 0 := by rw [hN, measure_toMeasurable]; exact ae_iff.mp hP
  have hNm : MeasurableSet N := measurableSet_toMeasurable _ _
  have hi : Measurable (N.indicator (1 : V3 ℝ → ℝ≥0∞)) := measurable_one.indicator hNm
  have h1 := law_cosine h hi
  have h2 : ∫⁻ d, ENNReal.ofReal (V3.dot d n / Real.pi) * N.indicator 1 d ∂solidAngle = 0 := by
    have : ∀ᵐ d ∂solidAngle, d ∉ N := by rw [ae_iff]; simpa using hN0
    rw [lintegral_congr_ae (this.mono fun d hd => ?_), lintegral_zero]
    rw [indicator_of_notMem hd, mul_zero]
  have hic : Measurable fun q : ℝ × ℝ => N.indicator (1 : V3 ℝ → ℝ≥0∞) (lin u v n (sampleCosineWeighted q.1 q.2)) := hi.comp ((measurable_lin u v n).comp measurable_cosine)
  rw [h2, lintegral_eq_zero_iff hic] at h1
  refine h1.mono fun q hq => ?_
  by_contra hc
  have : N.indicator (1 : V3 ℝ → ℝ≥0∞) (lin u v n (sampleCosineWeighted q.1 q.2)) = 1 := indicator_of_mem (subset_toMeasurable _ _ hc) _
  have hq : N.indicator (1 : V3 ℝ → ℝ≥0∞) (lin u v n (sampleCosineWeighted q.1 q.2)) = 0 := hq
  rw [this] at hq
  exact one_ne_zero hq

/-- Almost every first ray is defined and goes in almost any direction. -/
theorem Lamps.first (h : Lamps W Fs vertex node M sgn junk Ke ts) {P : V3 ℝ → V3 ℝ → Prop} (hP : ∀ o, ∀ᵐ d ∂solidAngle, P o d) :
    ∀ᵐ s ∂uniform1, ∀ᵐ p ∂uniform3, ∀ᵐ q ∂uniform2, ∃ sp wo K, samplePrimaryRay W ⟨p.1, p.2.1, s, p.2.2, q.1, q.2⟩ .LE = .ok sp wo K ∧ NonNeg K ∧ V3.dot wo wo = 1 ∧ P sp.geom.p wo := by
  have hnR : (0 : ℝ) < W.st.lights.length := by exact_mod_cast h.table.pos
  refine uniform1_ae.mono fun s hs => ?_
  obtain ⟨l, hl, _, e⟩ := h.table.select s hs.1 hs.2
  obtain ⟨hA, hM, _⟩ := h.size l hl
  obtain ⟨pA, hp, hp0, _⟩ := transformedInvA_pos (ts l) (M l) hA hM
  have hz : (0 : ℝ) ≤ 0 ∧ (0 : ℝ) < 1 := ⟨le_rfl, one_pos⟩
  refine cube_ae.mono fun p hc => ?_
  have hval : (⟨p.1, p.2.1, p.2.2, 0, 0⟩ : RayU).Valid := ⟨hc.1, hc.2.1, hc.2.2, hz, hz⟩
  obtain ⟨g, t, e', _, _, _, _, hon, _⟩ := sampleOnMesh_spec sgn junk (ts l) ⟨p.1, p.2.1, p.2.2, 0, 0⟩ (M l) hval hA hM
  have hFr := frame_of (C32_basis g.n (sgn g.n) hon.2.2.1)
  have hgood : ∀ᵐ d ∂solidAngle, V3.dot d d = 1 ∧ P g.p d := solidAngle_unit.and (hP g.p)
  refine (cosine_null hFr hgood).mono fun q hq => ?_
  have e3 : sampleOnMesh sgn junk (ts l) ⟨p.1, p.2.1, p.2.2, q.1, q.2⟩ (M l) = some g := e'
  have hpp : 0 < pA * pdfCosine := mul_pos hp0 pdfCosine_pos
  set wo := cosineAround sgn g ⟨p.1, p.2.1, p.2.2, q.1, q.2⟩ with hwo
  refine ⟨⟨.light, node l, g⟩, wo, (W.st.lights.length : ℝ) • (1 / (pA * pdfCosine)) • areaEval (Ke l) g wo, ?_, ?_, hq⟩
  · simp only [samplePrimaryRay, sampleFromLight, e, h.table.entry l hl, h.table.light l hl, if_true, RaySampleU.toLight, one_div, inv_inv, area, e3, hp, Option.map_some, ray, divV, hpp.ne', if_false, wrap, ← hwo]
  · refine nonneg_smul hnR.le (nonneg_smul (by positivity) ?_)
    unfold areaEval
    split_ifs
    · exact ⟨le_rfl, le_rfl, le_rfl⟩
    · exact h.nonneg l hl

/-! ### The light tracer -/

/-- What one sample of the light tracer adds, averaged over its random numbers, is the light that the lights send out, weighted with what the camera records of it. -/
theorem lt_average (hm : Matte W Q n cam Fs vertex m C f) (h : Lamps W Fs vertex node M sgn junk Ke ts) (i : Fin 3) {comps : SI → V3 ℝ → Finset ℕ} (hcomp : ∀ j ∈ Fs.map (·.1), ∀ p wi, comps (vertex j p) wi = C j)
    {H : ℝ × ℝ → ℝ≥0∞} (hH : Measurable H) {P : V3 ℝ → ℝ} (hPm : Measurable P) (hP : ∀ d, camPdfDirection cam d = some (P d)) (hP0 : ∀ d, 0 ≤ P d) (N : ℕ) (rs : ℕ → Rnd) :
    averageLight (fun u => ∫⁻ uc, average (N - 2) 2 rs (fun rs' => measured i H (ltSample W Q N u uc rs')) ∂uniform1) =
      Adjoint.pair (surf Fs) solidAngle (slant vertex) (emission W Fs vertex i) (Adjoint.back (fun x d => hitOf Q x.2 d)
        (Adjoint.relay (fun x d => hitOf Q x.2 d) solidAngle (kernel vertex C f i .LE) (recorded W Q cam vertex C f i H P) (N - 2))) := by
  have hR := hm.reversible i
  have hrel := hR.relay (hm.measurable_recorded i hH hPm) (N - 2)
  rw [← h.rays hm i (hR.back _ hrel) (fun j j' p d => rfl)]
  have hS := hm.sound i hcomp hH hPm hP hP0
  unfold averageLight
  refine lintegral_congr_ae ((h.first (P := fun o d => ∀ x, hitOf Q o d = some x → ClearAt W Q n cam vertex x) hm.clear).mono fun s hs => lintegral_congr_ae (hs.mono fun p hp => lintegral_congr_ae (hp.mono fun q hq => ?_)))
  obtain ⟨sp, wo, K, e, hK, hwo, hcl⟩ := hq
  dsimp only
  rw [e]
  have hah := (hm.onward i hcomp hH hPm (N - 2)).2 sp 0 wo hwo
  unfold rayWorth
  dsimp only
  rw [← hah]
  unfold ahead ltSample
  simp only [e]
  rw [hS.isect]
  cases hi : Q.isect sp.geom.p wo with
  | none => simp [measured, average_const]
  | some hit =>
    dsimp only
    have hg : Arrived W Q n cam vertex hit (-wo) := ⟨_, wo, hwo, hi, rfl, hcl _ (by simp [hitOf, hi])⟩
    cases hinf : hit.geom.infinite with
    | true => simp [measured, average_const]
    | false =>
      simp only [Bool.false_eq_true, if_false]
      obtain ⟨hpick, hsum⟩ := hS.select _ _ hg
      have key : ∀ᵐ uc ∂uniform1, average (N - 2) 2 rs (fun rs' => measured i H (do
            let (comp, wc) ← sampleComponent W uc hit (-wo)
            walk W (rouletteAt (2 / 10)) (ltBody W Q) rs' (N - 2) 2 ⟨hit, comp, -wo, wc • K, (0, 0)⟩)) =
          ENNReal.ofReal (chan i K) * compWorth (Transport.onward (lightOptics W Q i comps) (sensorAt W Q cam vertex f i H P) (N - 2) hit (-wo)) (sampleComponent W uc hit (-wo)) := by
        refine uniform1_ae.mono fun uc hu => ?_
        obtain ⟨c, w, ec, hc, hw⟩ := hpick uc hu.1 hu.2
        simp only [ec, Option.bind_eq_bind, Option.bind_some, compWorth]
        rw [lt_walk W Q _ i H _ _ hS rs (N - 2) 2 ⟨hit, c, -wo, w • K, (0, 0)⟩ hg hc (nonneg_smul hw hK)]
        dsimp only
        rw [chan_smul, ENNReal.ofReal_mul hw]
        ring
      rw [lintegral_congr_ae key, lintegral_const_mul' _ _ ENNReal.ofReal_ne_top, hsum]

end LM.Transport
