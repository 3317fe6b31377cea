import Verif.Props.C82_Scenes
import Verif.Spec.Skins
/-
  C82 in scenes of separate triangles with mirrors, glass, transparent surfaces and the materials of OBJ models, beside diffuse and glossy materials and mixtures.
-/
namespace LM.Transport
open MeasureTheory LM LM.Surface LM.Material LM.Light LM.MathF LM.Path LM.Render LM.Solid Set
open scoped ENNReal

/-! ### The components of the materials -/

/-- What a component scatters, as measurable functions: a BSDF, or a direction and a value. -/
def Tabled (vertex : V3 ℝ → SI) (m : Mat) (c : ℕ) : Prop :=
  (m.isSpecular c = some false ∧ ∃ F : V3 ℝ × V3 ℝ × V3 ℝ → V3 ℝ, Measurable F ∧ ∀ p wi wo, V3.dot wi wi = 1 → V3.dot wo wo = 1 → V3.dot wi (vertex p).geom.n ≠ 0 → m.eval (vertex p).geom wi wo c .EL false = some (F (p, wi, wo))) ∨
  (m.isSpecular c = some true ∧ ∃ (D : V3 ℝ × V3 ℝ → V3 ℝ) (V : V3 ℝ × V3 ℝ → V3 ℝ), Measurable D ∧ Measurable V ∧
    ∀ p wi, V3.dot wi wi = 1 → V3.dot wi (vertex p).geom.n ≠ 0 → (∃ C, m.sampleDirection ⟨0, 0, 0⟩ (vertex p).geom wi c .EL = .ok (D (p, wi)) C) ∧ m.eval (vertex p).geom wi (D (p, wi)) c .EL false = some (V (p, wi)))

/-- The components of a material, which are selected depending on the point and the direction. -/
def Gathers (vertex : V3 ℝ → SI) (m : Mat) (comps : Geom → V3 ℝ → Finset ℕ) : Prop :=
  ∃ N, (∀ c < N, Tabled vertex m c) ∧ (∀ p wi, comps (vertex p).geom wi ⊆ Finset.range N) ∧ ∀ c, MeasurableSet {q : V3 ℝ × V3 ℝ | c ∈ comps (vertex q.1).geom q.2}

variable {ps : List Part} {sgn : V3 ℝ → Bool} {junk : V3 ℝ} {W : World} {Q : Query} {n : Int} {cam : Camera}

theorem Room.normals (h : Room W Q n cam ps sgn junk) (j : Int) : Measurable fun p => (vertexAt ps sgn junk j p).geom.n := measurable_normalAt (fun a ha => h.size ha) j

theorem smooth_integral (h : Room W Q n cam ps sgn junk) {j : Int} {m : Mat} (hm : W.materialAt j = some m) {c : ℕ} (hsnc : Measurable fun q : V3 ℝ × V3 ℝ × V3 ℝ => shadingNormalCorrection (vertexAt ps sgn junk j q.1).geom q.2.1 q.2.2 .EL) (hk : m.isSpecular c = some false)
    {B : V3 ℝ × V3 ℝ × V3 ℝ → V3 ℝ} (hB : Measurable B) (hBe : ∀ p wi wo, V3.dot wi wi = 1 → V3.dot wo wo = 1 → V3.dot wi (vertexAt ps sgn junk j p).geom.n ≠ 0 → m.eval (vertexAt ps sgn junk j p).geom wi wo c .EL false = some (B (p, wi, wo))) (i : Fin 3) {F : V3 ℝ × V3 ℝ → ℝ≥0∞} (hF : Measurable F) :
    ∃ G : V3 ℝ × V3 ℝ → ℝ≥0∞, Measurable G ∧ ∀ p wi, V3.dot wi wi = 1 → V3.dot wi (vertexAt ps sgn junk j p).geom.n ≠ 0 → ∫⁻ d, F (p, d) ∂Transport.scattered W i (vertexAt ps sgn junk j p) wi c = G (p, wi) := by
  have hn : Measurable fun q : V3 ℝ × V3 ℝ × V3 ℝ => (vertexAt ps sgn junk j q.1).geom.n := (h.normals j).comp measurable_fst
  have hkern : Measurable fun q : V3 ℝ × V3 ℝ × V3 ℝ => ENNReal.ofReal (shadingNormalCorrection (vertexAt ps sgn junk j q.1).geom q.2.1 q.2.2 .EL) * ENNReal.ofReal (chan i (B q)) := hsnc.ennreal_ofReal.mul ((measurable_chan i).comp hB).ennreal_ofReal
  have hcos : Measurable fun q : V3 ℝ × V3 ℝ × V3 ℝ => ENNReal.ofReal |V3.dot q.2.2 (vertexAt ps sgn junk j q.1).geom.n| := (continuous_abs.measurable.comp (measurable_dot3 (measurable_snd.comp measurable_snd) hn)).ennreal_ofReal
  have harr : Measurable fun q : (V3 ℝ × V3 ℝ) × V3 ℝ => (q.1.1, q.1.2, q.2) := (measurable_fst.comp measurable_fst).prodMk ((measurable_snd.comp measurable_fst).prodMk measurable_snd)
  have hall : Measurable fun q : (V3 ℝ × V3 ℝ) × V3 ℝ => ENNReal.ofReal |V3.dot q.2 (vertexAt ps sgn junk j q.1.1).geom.n| *
      (ENNReal.ofReal (shadingNormalCorrection (vertexAt ps sgn junk j q.1.1).geom q.1.2 q.2 .EL) * ENNReal.ofReal (chan i (B (q.1.1, q.1.2, q.2))) * F (q.1.1, q.2)) :=
    (hcos.comp harr).mul ((hkern.comp harr).mul (hF.comp ((measurable_fst.comp measurable_fst).prodMk measurable_snd)))
  refine ⟨fun a => ∫⁻ d, ENNReal.ofReal |V3.dot d (vertexAt ps sgn junk j a.1).geom.n| *
      (ENNReal.ofReal (shadingNormalCorrection (vertexAt ps sgn junk j a.1).geom a.2 d .EL) * ENNReal.ofReal (chan i (B (a.1, a.2, d))) * F (a.1, d)) ∂solidAngle, hall.lintegral_prod_right', fun p wi hwi hw => ?_⟩
  have hspec : isSpecularComponent W (vertexAt ps sgn junk j p) c = some false := by
    show (W.materialAt j).bind (fun m => m.isSpecular c) = _
    rw [hm]; exact hk
  have hin : Measurable fun d : V3 ℝ => (p, wi, d) := measurable_const.prodMk (measurable_const.prodMk measurable_id)
  have hs1 : Measurable fun d => shadingNormalCorrection (vertexAt ps sgn junk j p).geom wi d .EL := by
    have := hsnc.comp hin
    exact this
  have hb1 : Measurable fun d => B (p, wi, d) := hB.comp hin
  have hden : Measurable fun d => ENNReal.ofReal (shadingNormalCorrection (vertexAt ps sgn junk j p).geom wi d .EL) * ENNReal.ofReal (chan i (B (p, wi, d))) := hs1.ennreal_ofReal.mul ((measurable_chan i).comp hb1).ennreal_ofReal
  have hFp : Measurable fun d => F (p, d) := hF.comp (measurable_const.prodMk measurable_id)
  have hcp : Measurable fun d => ENNReal.ofReal |V3.dot d (vertexAt ps sgn junk j p).geom.n| := hcos.comp hin
  unfold Transport.scattered
  rw [hspec]
  dsimp only
  have hang : solidAngleAt (vertexAt ps sgn junk j p).geom = projSolidAngle (vertexAt ps sgn junk j p).geom.n := rfl
  rw [hang, withDensity_congr_ae (g := fun d => ENNReal.ofReal (shadingNormalCorrection (vertexAt ps sgn junk j p).geom wi d .EL) * ENNReal.ofReal (chan i (B (p, wi, d))))]
  · rw [lintegral_withDensity_eq_lintegral_mul _ hden hFp]
    unfold projSolidAngle
    rw [lintegral_withDensity_eq_lintegral_mul _ hcp (hden.mul hFp)]
    rfl
  · refine (projSA_unit _).mono fun d hd => ?_
    beta_reduce
    have e : evalContrbDirection W (vertexAt ps sgn junk j p) wi d c .EL false = some (shadingNormalCorrection (vertexAt ps sgn junk j p).geom wi d .EL • B (p, wi, d)) := by
      show (W.materialAt j).bind _ = _
      rw [hm, Option.bind_some, hBe p wi d hwi hd hw]; rfl
    rw [e, value_snc _ (snc_nonneg' _ _ _ _)]
    rfl

theorem specular_integral {j : Int} {m : Mat} (hm : W.materialAt j = some m) {c : ℕ} (hsnc : Measurable fun q : V3 ℝ × V3 ℝ × V3 ℝ => shadingNormalCorrection (vertexAt ps sgn junk j q.1).geom q.2.1 q.2.2 .EL) (hk : m.isSpecular c = some true)
    {D V : V3 ℝ × V3 ℝ → V3 ℝ} (hD : Measurable D) (hV : Measurable V) (hDe : ∀ p wi, V3.dot wi wi = 1 → V3.dot wi (vertexAt ps sgn junk j p).geom.n ≠ 0 → (∃ C, m.sampleDirection ⟨0, 0, 0⟩ (vertexAt ps sgn junk j p).geom wi c .EL = .ok (D (p, wi)) C) ∧
      m.eval (vertexAt ps sgn junk j p).geom wi (D (p, wi)) c .EL false = some (V (p, wi))) (i : Fin 3) {F : V3 ℝ × V3 ℝ → ℝ≥0∞} (hF : Measurable F) :
    ∃ G : V3 ℝ × V3 ℝ → ℝ≥0∞, Measurable G ∧ ∀ p wi, V3.dot wi wi = 1 → V3.dot wi (vertexAt ps sgn junk j p).geom.n ≠ 0 → ∫⁻ d, F (p, d) ∂Transport.scattered W i (vertexAt ps sgn junk j p) wi c = G (p, wi) := by
  have hin : Measurable fun q : V3 ℝ × V3 ℝ => (q.1, q.2, D q) := measurable_fst.prodMk (measurable_snd.prodMk hD)
  refine ⟨fun q => ENNReal.ofReal (shadingNormalCorrection (vertexAt ps sgn junk j q.1).geom q.2 (D q) .EL) * ENNReal.ofReal (chan i (V q)) * F (q.1, D q),
    ((hsnc.comp hin).ennreal_ofReal.mul ((measurable_chan i).comp hV).ennreal_ofReal).mul (hF.comp (measurable_fst.prodMk hD)), fun p wi hwi hw => ?_⟩
  obtain ⟨⟨C, hC⟩, hev⟩ := hDe p wi hwi hw
  have hspec : isSpecularComponent W (vertexAt ps sgn junk j p) c = some true := by
    show (W.materialAt j).bind (fun m => m.isSpecular c) = _
    rw [hm]; exact hk
  have hsam : ∃ C', sampleDirection W ⟨0, 0, 0⟩ (vertexAt ps sgn junk j p) wi c .EL = .ok (D (p, wi)) C' := ⟨_, by
    rw [sample_surface rfl (show W.materialAt (vertexAt ps sgn junk j p).primitive = some m from hm), hC]⟩
  obtain ⟨C', hsam⟩ := hsam
  have e : evalContrbDirection W (vertexAt ps sgn junk j p) wi (D (p, wi)) c .EL false = some (shadingNormalCorrection (vertexAt ps sgn junk j p).geom wi (D (p, wi)) .EL • V (p, wi)) := by
    show (W.materialAt j).bind _ = _
    rw [hm, Option.bind_some, hev]; rfl
  unfold Transport.scattered
  rw [hspec]
  dsimp only
  rw [hsam]
  dsimp only
  have hFp : Measurable fun d => F (p, d) := hF.comp (measurable_const.prodMk measurable_id)
  rw [e, value_snc _ (snc_nonneg' _ _ _ _), lintegral_smul_measure, lintegral_dirac' _ hFp]
  rfl

theorem Tabled.integral (h : Room W Q n cam ps sgn junk) {j : Int} {m : Mat} (hm : W.materialAt j = some m) {c : ℕ} (hs : Tabled (vertexAt ps sgn junk j) m c) (i : Fin 3) {F : V3 ℝ × V3 ℝ → ℝ≥0∞} (hF : Measurable F) :
    ∃ G : V3 ℝ × V3 ℝ → ℝ≥0∞, Measurable G ∧ ∀ p wi, V3.dot wi wi = 1 → V3.dot wi (vertexAt ps sgn junk j p).geom.n ≠ 0 → ∫⁻ d, F (p, d) ∂Transport.scattered W i (vertexAt ps sgn junk j p) wi c = G (p, wi) := by
  have hsnc : Measurable fun q : V3 ℝ × V3 ℝ × V3 ℝ => shadingNormalCorrection (vertexAt ps sgn junk j q.1).geom q.2.1 q.2.2 .EL := measurable_snc' (g := fun p => (vertexAt ps sgn junk j p).geom) (h.normals j) (h.normals j) .EL
  rcases hs with ⟨hk, B, hB, hBe⟩ | ⟨hk, D, V, hD, hV, hDe⟩
  · exact smooth_integral h hm hsnc hk hB hBe i hF
  · exact specular_integral hm hsnc hk hD hV hDe i hF

theorem Gathers.integral (h : Room W Q n cam ps sgn junk) {j : Int} {m : Mat} (hm : W.materialAt j = some m) {comps : Geom → V3 ℝ → Finset ℕ} (hg : Gathers (vertexAt ps sgn junk j) m comps) (i : Fin 3) {F : V3 ℝ × V3 ℝ → ℝ≥0∞} (hF : Measurable F) :
    ∃ G : V3 ℝ × V3 ℝ → ℝ≥0∞, Measurable G ∧ ∀ p wi, V3.dot wi wi = 1 → V3.dot wi (vertexAt ps sgn junk j p).geom.n ≠ 0 →
      ∑ c ∈ comps (vertexAt ps sgn junk j p).geom wi, ∫⁻ d, F (p, d) ∂Transport.scattered W i (vertexAt ps sgn junk j p) wi c = G (p, wi) := by
  classical
  obtain ⟨N, hs, hsub, hms⟩ := hg
  have hx : ∀ c, ∃ G : V3 ℝ × V3 ℝ → ℝ≥0∞, Measurable G ∧ (c < N → ∀ p wi, V3.dot wi wi = 1 → V3.dot wi (vertexAt ps sgn junk j p).geom.n ≠ 0 → ∫⁻ d, F (p, d) ∂Transport.scattered W i (vertexAt ps sgn junk j p) wi c = G (p, wi)) := fun c => by
    by_cases hc : c < N
    · obtain ⟨G, h1, h2⟩ := (hs c hc).integral h hm i hF
      exact ⟨G, h1, fun _ => h2⟩
    · exact ⟨0, measurable_const, fun h => absurd h hc⟩
  choose G hG hGe using hx
  refine ⟨fun q => ∑ c ∈ Finset.range N, if q ∈ {q : V3 ℝ × V3 ℝ | c ∈ comps (vertexAt ps sgn junk j q.1).geom q.2} then G c q else 0, Finset.measurable_fun_sum _ fun c _ => Measurable.ite (hms c) (hG c) measurable_const, fun p wi hwi hw => ?_⟩
  have e : comps (vertexAt ps sgn junk j p).geom wi = (Finset.range N).filter fun c => c ∈ comps (vertexAt ps sgn junk j p).geom wi := by
    ext c
    rw [Finset.mem_filter]
    exact ⟨fun h => ⟨hsub p wi h, h⟩, fun h => h.2⟩
  rw [e, Finset.sum_filter]
  refine Finset.sum_congr rfl fun c hc => ?_
  show (if c ∈ comps (vertexAt ps sgn junk j p).geom wi then _ else _) = if c ∈ comps (vertexAt ps sgn junk j p).geom wi then _ else _
  rw [hGe c (Finset.mem_range.mp hc) p wi hwi hw]

/-! ### Light between the surfaces -/

/-- The light that arrives is a measurable function of the point and the direction. -/
theorem Room.incoming (h : Room W Q n cam ps sgn junk) {comps : SI → V3 ℝ → Finset ℕ} {m : Int → Mat} {C : Int → Geom → V3 ℝ → Finset ℕ} (hmat : ∀ a ∈ ps, W.materialAt a.prim = some (m a.prim))
    (hcomps : ∀ j p wi, comps (vertexAt ps sgn junk j p) wi = C j (vertexAt ps sgn junk j p).geom wi) (hg : ∀ j, Gathers (vertexAt ps sgn junk j) (m j) (C j)) (i : Fin 3)
    (hE : Adjoint.Meas (emission W (faces ps) (vertexAt ps sgn junk) i)) (k : ℕ) : ∃ I : V3 ℝ × V3 ℝ → ℝ≥0∞, Measurable I ∧ ∀ sp d, (optics W Q i comps).incoming k sp d = I (sp.geom.p, d) := by
  classical
  induction k with
  | zero => exact ⟨0, measurable_const, fun _ _ => rfl⟩
  | succ k ih =>
    obtain ⟨I, hI, hIe⟩ := ih
    have hx : ∀ j, ∃ G : V3 ℝ × V3 ℝ → ℝ≥0∞, Measurable G ∧ ((∃ a ∈ ps, a.prim = j) → ∀ p wi, V3.dot wi wi = 1 → V3.dot wi (vertexAt ps sgn junk j p).geom.n ≠ 0 →
        ∑ c ∈ C j (vertexAt ps sgn junk j p).geom wi, ∫⁻ d, I (p, d) ∂Transport.scattered W i (vertexAt ps sgn junk j p) wi c = G (p, wi)) := fun j => by
      by_cases hj : ∃ a ∈ ps, a.prim = j
      · obtain ⟨a, ha, rfl⟩ := hj
        obtain ⟨G, h1, h2⟩ := (hg a.prim).integral h (hmat a ha) i hI
        exact ⟨G, h1, fun _ => h2⟩
      · exact ⟨0, measurable_const, fun h => absurd h hj⟩
    choose G hG hGe using hx
    have hGm : Measurable fun q : Spot × V3 ℝ => G q.1.1 (q.1.2, q.2) := measurable_spot (F := fun x w => G x.1 (x.2, w)) fun j => hG j
    have hsum : Measurable fun q : (V3 ℝ × V3 ℝ) × Spot => emission W (faces ps) (vertexAt ps sgn junk) i q.2 (-q.1.2) + G q.2.1 (q.2.2, -q.1.2) := by
      have harr : Measurable fun q : (V3 ℝ × V3 ℝ) × Spot => (q.2, -q.1.2) := measurable_snd.prodMk (measurable_neg3.comp (measurable_snd.comp measurable_fst))
      exact (Measurable.comp hE harr).add (hGm.comp harr)
    refine ⟨fun a => match hitOf Q a.1 a.2 with | none => 0 | some x => emission W (faces ps) (vertexAt ps sgn junk) i x (-a.2) + G x.1 (x.2, -a.2),
      h.faceted.measurable_hit (α := V3 ℝ × V3 ℝ) (o := fun a => a.1) (d := fun a => a.2) (F := fun a x => emission W (faces ps) (vertexAt ps sgn junk) i x (-a.2) + G x.1 (x.2, -a.2)) measurable_fst measurable_snd hsum, fun sp d => ?_⟩
    show (match Q.isect sp.geom.p d with | none => 0 | some hit => emitted W i hit (-d) + if hit.geom.infinite then 0 else ∑ c ∈ comps hit (-d), ∫⁻ d', (optics W Q i comps).incoming k hit d' ∂Transport.scattered W i hit (-d) c) = _
    beta_reduce
    unfold hitOf
    cases hi : Q.isect sp.geom.p d with
    | none => rfl
    | some hit =>
      have hd : V3.dot d d = 1 := by
        by_contra hd
        rw [h.unitOnly _ _ hd] at hi; cases hi
      obtain ⟨⟨a, ha, hja⟩, hgr⟩ := h.face hi
      have hs := h.faceted.same _ _ _ hd hi
      dsimp only [Option.map_some]
      set j := hit.primitive with hjd
      set p := hit.geom.p with hpd
      have hdn : V3.dot (-d) (-d) = 1 := by simpa [V3.dot] using hd
      have hgn : V3.dot (-d) (vertexAt ps sgn junk j p).geom.n ≠ 0 := by
        rw [← hs, V3.dot_comm, V3.dot_neg_right, V3.dot_comm]; exact neg_ne_zero.mpr hgr
      have hj : j ∈ (faces ps).map (·.1) := prims_faces.mpr ⟨a, ha, hja.symm⟩
      rw [hs, hcomps, ← hGe j ⟨a, ha, hja.symm⟩ p (-d) hdn hgn]
      congr 1
      · exact (if_pos hj).symm
      · show (if false = true then _ else _) = _
        rw [if_neg (by simp)]
        refine Finset.sum_congr rfl fun c _ => lintegral_congr fun d' => ?_
        rw [hIe]; rfl

/-! ### Mixtures with specular entries -/

/-- A roulette mixture with positive weights: all entries are components. -/
theorem rr_all (es : List Entry) (g : Geom) (wi : V3 ℝ) (hpos : ∀ e ∈ es, 0 < e.2) (hne : es ≠ [])
    (he : ∀ e ∈ es, (MaterialDensity e.1 0 g wi ∧ Smooth e.1 0 g wi ∧ MeasurableEval e.1 0 g wi) ∨ Specular e.1 0 g wi) : MatOk (mixtureRR es) g wi (Finset.range es.length) := by
  classical
  have hnn : ∀ e ∈ es, 0 ≤ e.2 := fun e h => (hpos e h).le
  have hs : 0 < (es.map (·.2)).sum := List.sum_pos _ (fun x hx => by obtain ⟨e, h, rfl⟩ := List.mem_map.mp hx; exact hpos e h) (by simpa using hne)
  obtain ⟨d, hd, hd1, -⟩ := Dist.C28_pmf (es.map (·.2)) hs.ne'
  rw [← distOf_eq] at hd
  obtain ⟨C, hC⟩ := rr_ok es g wi hnn hs he
  obtain ⟨p, hp, _, _, hsum⟩ := C81_select_rr es g wi hnn hs
  have hCe : C = Finset.range es.length := by
    ext c
    have e := (hC.sum fun x => if x = c then 1 else 0).symm.trans (hsum fun x => if x = c then 1 else 0)
    rw [Finset.sum_ite_eq', Finset.sum_ite_eq'] at e
    have hiff : c ∈ C ↔ c ∈ (Finset.range es.length).filter fun c => p c ≠ 0 := by
      constructor <;> intro h <;> by_contra h' <;> rw [if_pos h, if_neg h'] at e <;> simp at e
    rw [hiff, Finset.mem_filter]
    refine ⟨fun h => h.1, fun h => ⟨h, ?_⟩⟩
    have hc := Finset.mem_range.mp h
    have hpdf : (mixtureRR es).pdfComponent c g wi = some (es[c].2 / (es.map (·.2)).sum) := by
      have := hd1 c (by simpa using hc)
      simp only [List.getElem_map] at this
      simp only [mixtureRR, hd, Option.map_some, this]
    rw [Option.some.inj ((hp c hc).symm.trans hpdf)]
    exact (div_pos (hpos _ (List.getElem_mem hc)) hs).ne'
  rw [hCe] at hC
  exact hC

/-! ### Functions of the normal and one direction -/

theorem Room.ofNormal (h : Room W Q n cam ps sgn junk) {β : Type} [MeasurableSpace β] (G : V3 ℝ → V3 ℝ → β) (hG : ∀ m, Measurable (G m)) (j : Int) : Measurable fun q : V3 ℝ × V3 ℝ => G (normalAt ps j q.1) q.2 := by
  have := (measurable_of_normal (fun m (q : V3 ℝ × V3 ℝ) => G m q.1) (fun m => (hG m).comp measurable_fst) j ps fun a ha => h.size ha).comp (measurable_fst.prodMk (measurable_snd.prodMk measurable_snd) : Measurable fun q : V3 ℝ × V3 ℝ => (q.1, q.2, q.2))
  exact this

theorem measurable_reflection (n : V3 ℝ) : Measurable fun w : V3 ℝ => reflection w n :=
  measurable_sub3' (measurable_smul3 (measurable_const.mul (measurable_dotc n)) measurable_const) measurable_id

theorem measurable_total (n : V3 ℝ) (eta : ℝ) : MeasurableSet {w : V3 ℝ | 1 - eta * eta * (1 - V3.dot w n * V3.dot w n) ≤ 0} :=
  measurableSet_le (measurable_const.sub (measurable_const.mul (measurable_const.sub ((measurable_dotc n).mul (measurable_dotc n))))) measurable_const

theorem measurable_bent (n : V3 ℝ) (eta : ℝ) : Measurable fun w : V3 ℝ => eta • (V3.dot w n • n - w) - safeSqrt (1 - eta * eta * (1 - V3.dot w n * V3.dot w n)) • n := by
  refine measurable_sub3' (measurable_smul3 measurable_const (measurable_sub3' (measurable_smul3 (measurable_dotc n) measurable_const) measurable_id)) (measurable_smul3 ?_ measurable_const)
  unfold safeSqrt
  exact (measurable_const.max (measurable_const.sub (measurable_const.mul (measurable_const.sub ((measurable_dotc n).mul (measurable_dotc n)))))).sqrt

/-- The refracted direction, or 0. -/
noncomputable def bentOr (w n : V3 ℝ) (eta : ℝ) : V3 ℝ := match refraction w n eta with
  | none => 0
  | some wt => wt

/-- The Fresnel term of one side. -/
noncomputable def frOr (Ni : ℝ) (g : Geom) (w n : V3 ℝ) (eta : ℝ) : ℝ := match refraction w n eta with
  | none => 1
  | some wt => fresnel Ni w wt g

theorem measurable_bentOr (n : V3 ℝ) (eta : ℝ) : Measurable fun w => bentOr w n eta := by
  have e : (fun w => bentOr w n eta) = fun w => if 1 - eta * eta * (1 - V3.dot w n * V3.dot w n) ≤ 0 then 0 else eta • (V3.dot w n • n - w) - safeSqrt (1 - eta * eta * (1 - V3.dot w n * V3.dot w n)) • n := by
    funext w
    simp only [bentOr, refraction]
    split_ifs <;> rfl
  rw [e]
  exact Measurable.ite (measurable_total n eta) measurable_const (measurable_bent n eta)

theorem measurable_frOr (Ni : ℝ) (g : Geom) (n : V3 ℝ) (eta : ℝ) : Measurable fun w => frOr Ni g w n eta := by
  have hf : Measurable fun w => fresnel Ni w (eta • (V3.dot w n • n - w) - safeSqrt (1 - eta * eta * (1 - V3.dot w n * V3.dot w n)) • n) g := by
    unfold fresnel
    refine measurable_const.add (measurable_const.mul ((measurable_const.sub (Measurable.ite ?_ (measurable_dotc g.n) ((measurable_dotc g.n).comp (measurable_bent n eta)))).pow_const 5))
    exact measurableSet_lt measurable_const (measurable_dotc g.n)
  have e : (fun w => frOr Ni g w n eta) = fun w => if 1 - eta * eta * (1 - V3.dot w n * V3.dot w n) ≤ 0 then 1 else fresnel Ni w (eta • (V3.dot w n • n - w) - safeSqrt (1 - eta * eta * (1 - V3.dot w n * V3.dot w n)) • n) g := by
    funext w
    simp only [frOr, refraction]
    split_ifs <;> rfl
  rw [e]
  exact Measurable.ite (measurable_total n eta) measurable_const hf

theorem glassWt_side (Ni : ℝ) (g : Geom) (w : V3 ℝ) : glassWt Ni g w = if V3.dot w g.n > 0 then bentOr w g.n (1 / Ni) else bentOr w (-g.n) Ni := by
  unfold glassWt glassSide bentOr
  split_ifs <;> rfl

theorem glassFr_side (Ni : ℝ) (g : Geom) (w : V3 ℝ) : glassFr Ni g w = if V3.dot w g.n > 0 then frOr Ni g w g.n (1 / Ni) else frOr Ni g w (-g.n) Ni := by
  unfold glassFr glassSide frOr
  split_ifs <;> rfl

theorem measurable_front_side (n : V3 ℝ) : MeasurableSet {w : V3 ℝ | V3.dot w n > 0} := measurableSet_lt measurable_const (measurable_dotc n)

theorem measurable_glassWt (Ni : ℝ) (g : Geom) : Measurable fun w => glassWt Ni g w := by
  simp_rw [glassWt_side]
  exact Measurable.ite (measurable_front_side g.n) (measurable_bentOr _ _) (measurable_bentOr _ _)

theorem measurable_glassFr (Ni : ℝ) (g : Geom) : Measurable fun w => glassFr Ni g w := by
  simp_rw [glassFr_side]
  exact Measurable.ite (measurable_front_side g.n) (measurable_frOr _ _ _ _) (measurable_frOr _ _ _ _)

theorem measurable_glassEval (Ni : ℝ) (g : Geom) (c : ℕ) : Measurable fun w => glassEval Ni g w c .EL false := by
  have hall : ∀ {f : V3 ℝ → ℝ}, Measurable f → Measurable fun w => V3.all (f w) := fun hf => measurable_mk hf hf hf
  unfold glassEval
  simp only [Bool.false_eq_true, if_false]
  have he : Measurable fun w => (glassSide Ni g w).2 := by
    have e : (fun w => (glassSide Ni g w).2) = fun w => if V3.dot w g.n > 0 then 1 / Ni else Ni := by
      funext w
      unfold glassSide
      split_ifs <;> rfl
    rw [e]
    exact Measurable.ite (measurable_front_side g.n) measurable_const measurable_const
  split_ifs
  · exact hall (measurable_glassFr Ni g)
  · refine hall ((measurable_const.sub (measurable_glassFr Ni g)).mul ?_)
    simp only [refrCorrection, if_true]
    exact he.mul he

/-! ### The materials -/

theorem Layer.tabled (h : Room W Q n cam ps sgn junk) {j : Int} {l : Layer} (hs : l.Sound (vertexAt ps sgn junk j)) : Tabled (vertexAt ps sgn junk j) l.mat 0 := by
  cases l with
  | coat k =>
    refine .inl ⟨by cases k <;> rfl, _, (h.measurableCoat j hs).1, fun p wi wo hi ho hw => ?_⟩
    exact (Coat.values hs 0 p wi wo (h.on j p) hi ho hw).2.1 .EL false
  | mirror => exact .inr ⟨rfl, _, _, h.ofNormal (fun m w => reflection w m) measurable_reflection j, measurable_const (a := V3.all 1), fun p wi _ _ => ⟨⟨_, rfl⟩, rfl⟩⟩
  | mask => exact .inr ⟨rfl, _, _, measurable_neg3.comp measurable_snd, measurable_const (a := V3.all 1), fun p wi _ _ => ⟨⟨_, rfl⟩, rfl⟩⟩

theorem Layer.ok {l : Layer} {vertex : V3 ℝ → SI} (hs : l.Sound vertex) (p wi : V3 ℝ) (hon : OnSurface (vertex p).geom) (hi : V3.dot wi wi = 1) (hw : V3.dot wi (vertex p).geom.n ≠ 0) :
    MatOk l.mat (vertex p).geom wi {0} ∧ ((MaterialDensity l.mat 0 (vertex p).geom wi ∧ Smooth l.mat 0 (vertex p).geom wi ∧ MeasurableEval l.mat 0 (vertex p).geom wi) ∨ Specular l.mat 0 (vertex p).geom wi) := by
  cases l with
  | coat k =>
    obtain ⟨h1, h2⟩ := Coat.ok hs p wi hon hi hw
    exact ⟨h1, .inl (h2 0)⟩
  | mirror =>
    have h1 := mirror_ok _ wi hon hi
    refine ⟨h1, .inr ((h1.comp 0 (by simp)).resolve_left fun h => ?_)⟩
    have := h.kind
    simp [Material.mirror] at this
  | mask =>
    have h1 := mask_ok (vertex p).geom wi hi
    refine ⟨h1, .inr ((h1.comp 0 (by simp)).resolve_left fun h => ?_)⟩
    have := h.kind
    simp [Material.mask] at this

theorem Layer.kind (l : Layer) : l.mat.isSpecular 0 = some l.single := by
  cases l with
  | coat k => exact coat_kind k 0
  | mirror => rfl
  | mask => rfl

theorem groups_layers (ls : List (Layer × ℝ)) : groups (ls.map fun e => (e.1.mat, e.2)) =
    ((ls.filter fun e => !e.1.single).map fun e => (e.1.mat, e.2)) :: (ls.filter fun e => e.1.single).map fun e => [(e.1.mat, e.2)] := by
  rw [C45_groups, List.filter_map, List.filter_map, List.map_map]
  simp only [Function.comp_def, Layer.kind]
  congr 1
  · congr 1
    exact List.filter_congr fun e _ => by cases e.1.single <;> simp
  · congr 1
    exact List.filter_congr fun e _ => by cases e.1.single <;> simp

theorem marg_comps (ls : List (Layer × ℝ)) (g : Geom) (wi : V3 ℝ) (c : ℕ) : c ∈ (Skin.marg ls).comps g wi ↔ ∃ grp, (groups (ls.map fun e => (e.1.mat, e.2)))[c]? = some grp ∧ grp ≠ [] := by
  classical
  simp only [Skin.comps]
  rw [Finset.mem_filter, Finset.mem_range, groups_layers]
  cases c with
  | zero =>
    rw [List.getElem?_cons_zero]
    constructor
    · rintro ⟨_, h⟩
      obtain ⟨e, he, hk⟩ := h rfl
      refine ⟨_, rfl, ?_⟩
      rw [Ne, List.map_eq_nil_iff]
      exact List.ne_nil_of_mem (List.mem_filter.mpr ⟨he, by simp [hk]⟩)
    · rintro ⟨grp, h, hn⟩
      cases h
      rw [Ne, List.map_eq_nil_iff] at hn
      obtain ⟨e, he⟩ := List.exists_mem_of_ne_nil _ hn
      obtain ⟨h1, h2⟩ := List.mem_filter.mp he
      exact ⟨by omega, fun _ => ⟨e, h1, by simpa using h2⟩⟩
  | succ k =>
    rw [List.getElem?_cons_succ, List.getElem?_map]
    have hl : k < (ls.filter fun e => e.1.single).length ↔ k + 1 < 1 + ls.countP fun e => e.1.single := by rw [List.countP_eq_length_filter]; omega
    constructor
    · rintro ⟨h, _⟩
      rw [List.getElem?_eq_getElem (hl.mpr h)]
      exact ⟨_, rfl, by simp⟩
    · rintro ⟨grp, h, _⟩
      refine ⟨hl.mp ?_, fun h => by omega⟩
      by_contra hk
      rw [List.getElem?_eq_none (not_lt.mp hk)] at h
      cases h

theorem Layer.entries {ls : List (Layer × ℝ)} {vertex : V3 ℝ → SI} (hs : ∀ e ∈ ls, 0 < e.2 ∧ e.1.Sound vertex) (p wi : V3 ℝ) (hon : OnSurface (vertex p).geom) (hi : V3.dot wi wi = 1) (hw : V3.dot wi (vertex p).geom.n ≠ 0) :
    ∀ e ∈ ls.map fun e => (e.1.mat, e.2), (FreeDensity e.1 0 (vertex p).geom wi ∧ Smooth e.1 0 (vertex p).geom wi ∧ MeasurableEval e.1 0 (vertex p).geom wi) ∨
      (Specular e.1 0 (vertex p).geom wi ∧ ∀ wo, e.1.pdfDirection (vertex p).geom wi wo 0 false = some 1) := by
  intro e he
  obtain ⟨⟨l, w⟩, h', rfl⟩ := List.mem_map.mp he
  have hso := (hs _ h').2
  have hok := (Layer.ok hso p wi hon hi hw).2
  dsimp only at hso hok ⊢
  cases l with
  | coat k => exact .inl ⟨Coat.free hso p wi hon hi hw, (hok.resolve_right fun h => by have := h.kind; rw [Layer.kind] at this; cases this).2⟩
  | mirror => exact .inr ⟨hok.resolve_left fun h => (by have := h.2.1.kind; rw [Layer.kind] at this; cases this), fun wo => rfl⟩
  | mask => exact .inr ⟨hok.resolve_left fun h => (by have := h.2.1.kind; rw [Layer.kind] at this; cases this), fun wo => rfl⟩

/-- In the holes of its mask, the material of an OBJ model is transparent. -/
theorem hole_ok (Kd : Geom → V3 ℝ) (Ks : V3 ℝ) (ax ay : ℝ) (alpha : Geom → ℝ) (g : Geom) (wi : V3 ℝ) (hi : V3.dot wi wi = 1) (ha : alpha g = 0) : MatOk (objMixture (Material.diffuse Kd) (Material.glossy Ks ax ay) alpha) g wi {1} := by
  have hsel : ∀ u : ℝ, 0 ≤ u → (objMixture (Material.diffuse Kd) (Material.glossy Ks ax ay) alpha).sampleComponent u g wi = some (1, 1) := fun u hu => by
    simp [objMixture, ha, not_lt.mpr hu, divF]
  refine ⟨fun u h0 _ => ⟨1, 1, hsel u h0, by simp, zero_le_one⟩, fun F => ?_, fun c hc => .inr ?_⟩
  · have : ∀ᵐ u ∂uniform1, compWorth F ((objMixture (Material.diffuse Kd) (Material.glossy Ks ax ay) alpha).sampleComponent u g wi) = F 1 := uniform1_ae.mono fun u hu => by simp [hsel u hu.1, compWorth]
    rw [lintegral_congr_ae this, int1_const]; simp
  · rw [Finset.mem_singleton] at hc
    subst hc
    refine ⟨rfl, -wi, V3.all 1, by simpa [V3.dot] using hi, ⟨by simp [V3.all], by simp [V3.all], by simp [V3.all]⟩, fun us => rfl, ?_⟩
    simp [objMixture, objEval, ha]

theorem Skin.ok {s : Skin} {vertex : V3 ℝ → SI} (hs : s.Sound vertex) (p wi : V3 ℝ) (hon : OnSurface (vertex p).geom) (hi : V3.dot wi wi = 1) (hw : V3.dot wi (vertex p).geom.n ≠ 0) : MatOk s.mat (vertex p).geom wi (s.comps (vertex p).geom wi) := by
  cases s with
  | plain l => exact (Layer.ok hs p wi hon hi hw).1
  | mix ls =>
    have := rr_all (ls.map fun e => (e.1.mat, e.2)) (vertex p).geom wi (fun e he => by
      obtain ⟨e', h', rfl⟩ := List.mem_map.mp he
      exact (hs.2 e' h').1) (by simpa using hs.1) fun e he => by
      obtain ⟨e', h', rfl⟩ := List.mem_map.mp he
      exact (Layer.ok (hs.2 e' h').2 p wi hon hi hw).2
    rw [List.length_map] at this
    exact this
  | marg ls =>
    have hpos : ∀ e ∈ ls.map fun e => (e.1.mat, e.2), 0 < e.2 := fun e he => by
      obtain ⟨e', h', rfl⟩ := List.mem_map.mp he
      exact (hs.2 e' h').1
    have hall := marg_ok (ls.map fun e => (e.1.mat, e.2)) (vertex p).geom wi hpos (by simpa using hs.1) (Layer.entries hs.2 p wi hon hi hw)
    exact hall.2 ((Skin.marg ls).comps (vertex p).geom wi) (marg_comps ls (vertex p).geom wi)
  | glass Ni => exact glass_ok Ni hs _ wi hon hi hw
  | obj Kd Ks ax ay alpha =>
    obtain ⟨⟨h1, hax, hay, hK, hK1⟩, ha, _⟩ := hs
    simp only [Skin.comps]
    rcases ha p with ha | ha
    · rw [if_neg (by rw [ha]; exact zero_ne_one)]
      exact hole_ok Kd Ks ax ay _ _ wi hi ha
    · rw [if_pos ha]
      exact obj_ok Kd Ks ax ay hax hay _ _ wi hon hi hw (h1.1 p) hK hK1 ha

theorem Skin.gathers (h : Room W Q n cam ps sgn junk) {j : Int} {s : Skin} (hs : s.Sound (vertexAt ps sgn junk j)) : Gathers (vertexAt ps sgn junk j) s.mat fun g wi => s.comps g wi := by
  cases s with
  | plain l =>
    refine ⟨1, fun c hc => ?_, fun p wi => by simp [Skin.comps], fun c => MeasurableSet.const _⟩
    obtain rfl : c = 0 := by omega
    exact Layer.tabled h hs
  | mix ls =>
    refine ⟨ls.length, fun c hc => ?_, fun p wi => Finset.Subset.refl _, fun c => MeasurableSet.const _⟩
    have hget : (ls.map fun e => (e.1.mat, e.2))[c]? = some (ls[c].1.mat, ls[c].2) := by rw [List.getElem?_map, List.getElem?_eq_getElem hc]; rfl
    rcases Layer.tabled h (hs.2 _ (List.getElem_mem hc)).2 with ⟨hk, F, hF, hFe⟩ | ⟨hk, D, V, hD, hV, hDe⟩
    · refine .inl ⟨by simp only [Skin.mat, mixtureRR, hget, Option.bind_some, hk], fun q => ls[c].2 • F q, measurable_smul3 measurable_const hF, fun p wi wo hi ho hw => ?_⟩
      simp only [Skin.mat, mixtureRR, hget, Option.bind_some, hFe p wi wo hi ho hw, Option.map_some]
    · refine .inr ⟨by simp only [Skin.mat, mixtureRR, hget, Option.bind_some, hk], D, fun q => ls[c].2 • V q, hD, measurable_smul3 measurable_const hV, fun p wi hi hw => ?_⟩
      obtain ⟨⟨C, hC⟩, he⟩ := hDe p wi hi hw
      exact ⟨⟨ls[c].2 • C, by simp only [Skin.mat, mixtureRR, hget, hC]⟩, by simp only [Skin.mat, mixtureRR, hget, Option.bind_some, he, Option.map_some]⟩
  | marg ls =>
    refine ⟨(groups (ls.map fun e => (e.1.mat, e.2))).length, fun c hc => ?_, fun p wi c hc => ?_, fun c => MeasurableSet.const _⟩
    · cases c with
      | zero =>
        have hget : (groups (ls.map fun e => (e.1.mat, e.2)))[0]? = some ((ls.filter fun e => !e.1.single).map fun e => (e.1.mat, e.2)) := by rw [groups_layers]; rfl
        have hx : ∀ e : Layer × ℝ, ∃ F : V3 ℝ × V3 ℝ × V3 ℝ → V3 ℝ, Measurable F ∧ (e ∈ ls.filter (fun e => !e.1.single) → ∀ p wi wo, V3.dot wi wi = 1 → V3.dot wo wo = 1 → V3.dot wi (vertexAt ps sgn junk j p).geom.n ≠ 0 →
            e.1.mat.eval (vertexAt ps sgn junk j p).geom wi wo 0 .EL false = some (F (p, wi, wo))) := fun e => by
          by_cases he : e ∈ ls.filter (fun e => !e.1.single)
          · obtain ⟨h1, h2⟩ := List.mem_filter.mp he
            rcases Layer.tabled h (hs.2 e h1).2 with ⟨_, F, hF, hFe⟩ | ⟨hk, _⟩
            · exact ⟨F, hF, fun _ => hFe⟩
            · rw [Layer.kind, Option.some.injEq] at hk
              rw [hk] at h2; cases h2
          · exact ⟨0, measurable_const, fun h => absurd h he⟩
        choose F hF hFe using hx
        refine .inl ⟨by simp [Skin.mat, mixtureMarg], fun q => ((ls.filter fun e => !e.1.single).map fun e => e.2 • F e q).sum, measurable_sum3 _ _ fun e _ => measurable_smul3 measurable_const (hF e), fun p wi wo hi ho hw => ?_⟩
        simp only [Skin.mat, mixtureMarg, hget, Option.bind_some]
        unfold groupEval
        rw [List.mapM_map, mapM_eq_map _ _ (fun e => e.2 • F e (p, wi, wo)) fun e he => by rw [Function.comp_apply, hFe e he p wi wo hi ho hw]; rfl]
        rfl
      | succ k =>
        have hk : k < (ls.filter fun e => e.1.single).length := by
          rw [groups_layers, List.length_cons, List.length_map] at hc; omega
        set e := (ls.filter fun e => e.1.single)[k] with hed
        obtain ⟨h1, h2⟩ := List.mem_filter.mp (List.getElem_mem hk)
        rw [← hed] at h1 h2
        have hget : (groups (ls.map fun e => (e.1.mat, e.2)))[k + 1]? = some [(e.1.mat, e.2)] := by
          rw [groups_layers, List.getElem?_cons_succ, List.getElem?_map, List.getElem?_eq_getElem hk]; rfl
        rcases Layer.tabled h (hs.2 e h1).2 with ⟨hk, _⟩ | ⟨hk, D, V, hD, hV, hDe⟩
        · rw [Layer.kind, Option.some.injEq] at hk
          rw [hk] at h2; cases h2
        · have hpos := (hs.2 e h1).1
          refine .inr ⟨by simp [Skin.mat, mixtureMarg], D, fun q => e.2 • V q, hD, measurable_smul3 measurable_const hV, fun p wi hi hw => ?_⟩
          obtain ⟨⟨C, hC⟩, he⟩ := hDe p wi hi hw
          have hge : groupEval [(e.1.mat, e.2)] (vertexAt ps sgn junk j p).geom wi (D (p, wi)) .EL false = some (e.2 • V (p, wi)) := by
            rw [groupEval_at (F := fun _ => V (p, wi)) fun x hx => by rw [List.mem_singleton.mp hx]; exact he]
            simp
          have hone : e.1.mat.pdfDirection (vertexAt ps sgn junk j p).geom wi (D (p, wi)) 0 false = some 1 := by
            cases hl : e.1 with
            | coat k => rw [hl] at h2; cases h2
            | mirror => rfl
            | mask => rfl
          have hgp : groupPdf [(e.1.mat, e.2)] (vertexAt ps sgn junk j p).geom wi (D (p, wi)) false = some 1 := by
            rw [groupPdf_at (P := fun _ => 1) (by simpa using hpos) fun x hx => by rw [List.mem_singleton.mp hx]; exact hone]
            simp [div_self hpos.ne']
          refine ⟨?_, by simp only [Skin.mat, mixtureMarg, hget, Option.bind_some, hge]⟩
          obtain ⟨C', hC', _⟩ := weightOf_ok (D (p, wi)) (e.2 • V (p, wi)) 1 one_pos
          exact ⟨C', by simp only [Skin.mat, mixtureMarg, hget, List.map_cons, List.map_nil, sample_one hpos.ne', List.getElem?_cons_zero, hC, hge, hgp, hC']⟩
    · obtain ⟨grp, h1, _⟩ := (marg_comps ls _ wi c).mp hc
      exact Finset.mem_range.mpr (List.getElem?_eq_some_iff.mp h1).1
  | glass Ni =>
    have hFr : Measurable fun q : V3 ℝ × V3 ℝ => glassFr Ni (vertexAt ps sgn junk j q.1).geom q.2 := h.ofNormal (fun m w => glassFr Ni (geomOf sgn junk m) w) (fun m => measurable_glassFr Ni _) j
    refine ⟨2, fun c hc => .inr ?_, fun p wi => Finset.filter_subset _ _, fun c => ?_⟩
    · have hV : Measurable fun q : V3 ℝ × V3 ℝ => glassEval Ni (vertexAt ps sgn junk j q.1).geom q.2 c .EL false := h.ofNormal (fun m w => glassEval Ni (geomOf sgn junk m) w c .EL false) (fun m => measurable_glassEval Ni _ c) j
      by_cases hc0 : c = 0
      · subst hc0
        refine ⟨rfl, _, _, h.ofNormal (fun m w => reflection w m) measurable_reflection j, hV, fun p wi _ _ => ⟨?_, rfl⟩⟩
        obtain ⟨C, hC, _⟩ := weightOf_ok (reflection wi (vertexAt ps sgn junk j p).geom.n) (glassEval Ni (vertexAt ps sgn junk j p).geom wi 0 .EL false) 1 one_pos
        exact ⟨C, hC⟩
      · have hD : Measurable fun q : V3 ℝ × V3 ℝ => glassWt Ni (vertexAt ps sgn junk j q.1).geom q.2 := h.ofNormal (fun m w => glassWt Ni (geomOf sgn junk m) w) (fun m => measurable_glassWt Ni _) j
        refine ⟨rfl, _, _, hD, hV, fun p wi _ _ => ⟨?_, rfl⟩⟩
        obtain ⟨C, hC, _⟩ := weightOf_ok (glassWt Ni (vertexAt ps sgn junk j p).geom wi) (glassEval Ni (vertexAt ps sgn junk j p).geom wi c .EL false) 1 one_pos
        exact ⟨C, by simp only [Skin.mat, Material.glass, if_neg hc0]; exact hC⟩
    · have e : {q : V3 ℝ × V3 ℝ | c ∈ (Skin.glass Ni).comps (vertexAt ps sgn junk j q.1).geom q.2} = {q | c < 2} ∩ {q | (if c = 0 then glassFr Ni (vertexAt ps sgn junk j q.1).geom q.2 else 1 - glassFr Ni (vertexAt ps sgn junk j q.1).geom q.2) ≠ 0} := by
        ext q
        simp only [Skin.comps, mem_ofPred_eq, Finset.mem_filter, Finset.mem_range, mem_inter_iff]
      rw [e]
      refine (MeasurableSet.const _).inter (measurableSet_eq_fun ?_ measurable_const).compl
      split_ifs
      · exact hFr
      · exact measurable_const.sub hFr
  | obj Kd Ks ax ay alpha =>
    obtain ⟨⟨h1, h2⟩, _, ham⟩ := hs
    refine ⟨2, fun c hc => ?_, fun p wi => ?_, fun c => ?_⟩
    · by_cases hc0 : c = 0
      · subst hc0
        refine .inl ⟨rfl, _, measurable_smul3 (ham.comp measurable_fst) (measurable_add3 (h.measurableCoat j h1).1 (h.measurableCoat j h2).1), fun p wi wo hi ho hw => ?_⟩
        have e1 := (Coat.values h1 0 p wi wo (h.on j p) hi ho hw).2.1 .EL false
        have e2 := (Coat.values h2 0 p wi wo (h.on j p) hi ho hw).2.1 .EL false
        simp only [Coat.mat] at e1 e2
        simp [Skin.mat, objMixture, objEval, e1, e2]
      · have h1m : Measurable fun q : V3 ℝ × V3 ℝ => 1 - alpha (vertexAt ps sgn junk j q.1).geom := measurable_const.sub (ham.comp measurable_fst)
        refine .inr ⟨by simp [Skin.mat, objMixture, hc0], _, fun q => V3.all (1 - alpha (vertexAt ps sgn junk j q.1).geom), measurable_neg3.comp measurable_snd, measurable_mk h1m h1m h1m, fun p wi _ _ => ⟨⟨V3.all 1, ?_⟩, ?_⟩⟩
        · simp only [Skin.mat, objMixture, if_neg hc0]; rfl
        · simp only [Skin.mat, objMixture, objEval, if_neg hc0]; rfl
    · simp only [Skin.comps]
      split <;> simp
    · have e : {q : V3 ℝ × V3 ℝ | c ∈ (Skin.obj Kd Ks ax ay alpha).comps (vertexAt ps sgn junk j q.1).geom q.2} = {q | alpha (vertexAt ps sgn junk j q.1).geom = 1 ∧ c = 0} ∪ {q | alpha (vertexAt ps sgn junk j q.1).geom ≠ 1 ∧ c = 1} := by
        ext q
        simp only [Skin.comps, mem_ofPred_eq, mem_union]
        split <;> simp [*]
      rw [e]
      have hm1 : MeasurableSet {q : V3 ℝ × V3 ℝ | alpha (vertexAt ps sgn junk j q.1).geom = 1} := measurableSet_eq_fun (ham.comp measurable_fst) measurable_const
      exact (hm1.inter (MeasurableSet.const _)).union (hm1.compl.inter (MeasurableSet.const _))

variable {node : ℕ → Int} {M : ℕ → Aff ℝ} {lsgn : V3 ℝ → Bool} {ljunk : V3 ℝ} {Ke : ℕ → V3 ℝ} {ts : ℕ → List Tri}

/-- C82. The path tracer, in every scene of separate triangles with area lights whose surfaces are diffuse, glossy, mirrors, transparent, mixtures of these of either kind, glass, or have the material of OBJ models, whose masks cut holes, in every sampling mode: its expected
    value on the film is the integral, over the film, of the radiance arriving along the primary rays by light paths with the given number of vertices. -/
theorem C82_skins (h : Room W Q n cam ps sgn junk) {skin : Int → Skin} (hp : Dress W ps sgn junk skin) (hl : Lighting W ps node M lsgn ljunk Ke ts) (i : Fin 3)
    (cfg : Cfg) (dir : ℝ × ℝ → V3 ℝ) (hdir : ∀ q, primaryRay cam q.1 q.2 = some (dir q)) (H : ℝ × ℝ → ℝ≥0∞) (hH : Measurable H) (u : RaySampleU) (uc : ℝ) (rs : ℕ → Rnd) :
    average (cfg.maxVerts - 1) 1 rs (fun rs' => measured i H (ptSample W Q cfg u uc rs')) = ∫⁻ q, H q * (optics W Q i (compsOf skin)).incoming (cfg.maxVerts - 1) (camVertex W n cam) (dir q) ∂uniform2 := by
  have hlamp : Lamps W (faces ps) (vertexAt ps sgn junk) node M lsgn ljunk Ke ts := hl.lamps h.separate
  have hE := hlamp.measurableOf h.faceted h.normals i
  have hreg : Regular W Q n cam (compsOf skin) := by
    refine ⟨h.cameraAt, h.proper, rfl, fun o d hit hd hi _ => ?_, fun o d hit hd hi hf => ?_⟩
    · obtain ⟨⟨a, ha, hja⟩, hgr⟩ := h.face hi
      have hs := h.faceted.same o d hit hd hi
      have hdn : V3.dot (-d) (-d) = 1 := by simpa [V3.dot] using hd
      have hgn : V3.dot (-d) (vertexAt ps sgn junk hit.primitive hit.geom.p).geom.n ≠ 0 := by
        rw [← hs, V3.dot_comm, V3.dot_neg_right, V3.dot_comm]; exact neg_ne_zero.mpr hgr
      have hk := Skin.ok (hp.sound hit.primitive) hit.geom.p (-d) (h.on _ _) hdn hgn
      have hon := h.on hit.primitive hit.geom.p
      have hcomp : compsOf skin hit (-d) = (skin hit.primitive).comps hit.geom (-d) := by
        have hkind : hit.kind = .surface := by rw [hs]; rfl
        simp only [compsOf, hkind]
      rw [← hs] at hk hon
      refine ⟨by rw [hs]; rfl, by rw [hs]; rfl, hon, hgr, (skin hit.primitive).mat, by rw [hja]; exact hp.material a ha, ?_⟩
      rw [hcomp]; exact hk
    · rw [h.faceted.same o d hit hd hi] at hf
      cases hf
  have hinc := h.incoming (comps := compsOf skin) (m := fun j => (skin j).mat) (C := fun j g wi => (skin j).comps g wi) hp.material (fun _ _ _ => rfl) (fun j => Skin.gathers h (hp.sound j)) i hE
  refine C82_lamps hreg h.camera hlamp.table (fun sp wi hv => hlamp.lightAtOf h.faceted h.normals h.unitOnly hv.finite fun l hll g hg t ht hin hd => h.lightVisible hl sp hv.finite l hll g hg t ht hin hd) (fun o d hit hi hL => ?_) i
    (fun k sp _ _ => ?_) cfg dir hdir H hH u uc rs
  · obtain ⟨L, hL⟩ := Option.isSome_iff_exists.1 hL
    obtain ⟨⟨a, ha, hja⟩, _⟩ := h.face hi
    rw [hja] at hL ⊢
    exact hl.only a ha L hL
  · obtain ⟨I, hI, hIe⟩ := hinc k
    refine (congrArg Measurable (funext fun d => (hIe sp d).symm)).mp ?_
    exact hI.comp (measurable_const.prodMk measurable_id)

/-! ### Concrete scenes: that of C82_Scenes, where the triangles beside the lamp have any of the materials -/

noncomputable def exDressed (s : Skin) : World := { exGlowing with
  material := fun k => if k = 0 then s.mat else diffuse (fun _ => V3.all (1 / 2)) }

noncomputable def exSkin (s : Skin) (j : Int) : Skin := if j = 2 then s else .plain (.coat (.diffuse fun _ => V3.all (1 / 2)))

theorem exDressedRoom (s : Skin) : Room (exDressed s) exRoomQ 3 exCam exParts (fun _ => false) 0 :=
  { exRoom with camera := rfl, cameraAt := rfl }

theorem exDress {s : Skin} (hs : s.Sound (vertexAt exParts (fun _ => false) 0 2)) : Dress (exDressed s) exParts (fun _ => false) 0 (exSkin s) where
  material a ha := by
    rcases (by simpa [exParts] using ha : a = ⟨1, 1, glowTri⟩ ∨ a = ⟨2, 1, lampTri⟩ ∨ a = ⟨2, 1, shadeTri⟩) with rfl | rfl | rfl <;> rfl
  sound j := by
    unfold exSkin
    split
    · rename_i h; subst h; exact hs
    · exact ⟨fun _ => half_nonneg, measurable_const⟩

theorem exDressedLighting (s : Skin) : Lighting (exDressed s) exParts (fun _ => 1) (fun _ => 1) (fun _ => false) 0 (fun _ => V3.all 1) (fun _ => [glowTri]) where
  table := ⟨exGlow_table.1, exGlow_table.2, exGlow_table.3, exGlow_table.4⟩
  size := exGlow_lamps.size
  nonneg := exGlow_lamps.nonneg
  only := exLighting.only
  parts l hl := by simp [exParts]

theorem exSkins {s : Skin} (hs : s.Sound (vertexAt exParts (fun _ => false) 0 2)) (i : Fin 3) (mode : Mode) (px : Bool) (N : ℕ) (dir : ℝ × ℝ → V3 ℝ) (hdir : ∀ q, primaryRay exCam q.1 q.2 = some (dir q)) (H : ℝ × ℝ → ℝ≥0∞) (hH : Measurable H)
    (u : RaySampleU) (uc : ℝ) (rs : ℕ → Rnd) : average (N - 1) 1 rs (fun rs' => measured i H (ptSample (exDressed s) exRoomQ ⟨mode, px, N⟩ u uc rs')) =
      ∫⁻ q, H q * (optics (exDressed s) exRoomQ i (compsOf (exSkin s))).incoming (N - 1) (camVertex (exDressed s) 3 exCam) (dir q) ∂uniform2 :=
  C82_skins (exDressedRoom s) (exDress hs) (exDressedLighting s) i ⟨mode, px, N⟩ dir hdir H hH u uc rs

/-- With glass. -/
example (i : Fin 3) (mode : Mode) (px : Bool) (N : ℕ) (dir : ℝ × ℝ → V3 ℝ) (hdir : ∀ q, primaryRay exCam q.1 q.2 = some (dir q)) (H : ℝ × ℝ → ℝ≥0∞) (hH : Measurable H) (u : RaySampleU) (uc : ℝ) (rs : ℕ → Rnd) :
    average (N - 1) 1 rs (fun rs' => measured i H (ptSample (exDressed (.glass (3 / 2))) exRoomQ ⟨mode, px, N⟩ u uc rs')) =
      ∫⁻ q, H q * (optics (exDressed (.glass (3 / 2))) exRoomQ i (compsOf (exSkin (.glass (3 / 2))))).incoming (N - 1) (camVertex (exDressed (.glass (3 / 2))) 3 exCam) (dir q) ∂uniform2 :=
  exSkins (by show (0 : ℝ) < 3 / 2; norm_num) i mode px N dir hdir H hH u uc rs

/-- The other materials are sound as well: mixtures of a mirror and a glossy material, and one of an OBJ model. -/
example : (Skin.marg [(.mirror, 1 / 3), (.coat (.glossy (V3.all (1 / 2)) (1 / 4) (1 / 2)), 2 / 3)]).Sound (vertexAt exParts (fun _ => false) 0 2) := by
  refine ⟨by simp, fun e he => ?_⟩
  rcases List.mem_cons.mp he with rfl | he
  · exact ⟨by norm_num, trivial⟩
  · rw [List.mem_singleton.mp he]
    refine ⟨by norm_num, by norm_num, by norm_num, half_nonneg, ?_, ?_, ?_⟩ <;> simp [V3.all] <;> norm_num

example : (Skin.mix [(.mirror, 1 / 3), (.coat (.glossy (V3.all (1 / 2)) (1 / 4) (1 / 2)), 2 / 3)]).Sound (vertexAt exParts (fun _ => false) 0 2) := by
  refine ⟨by simp, fun e he => ?_⟩
  rcases List.mem_cons.mp he with rfl | he
  · exact ⟨by norm_num, trivial⟩
  · rw [List.mem_singleton.mp he]
    refine ⟨by norm_num, by norm_num, by norm_num, half_nonneg, ?_, ?_, ?_⟩ <;> simp [V3.all] <;> norm_num

/-- A material with a round hole. -/
example : (Skin.obj (fun _ => V3.all (1 / 2)) (V3.all (1 / 2)) (1 / 4) (1 / 2) fun g => open Classical in if V3.dot g.p g.p ≤ 1 then 0 else 1).Sound (vertexAt exParts (fun _ => false) 0 2) := by
  classical
  refine ⟨⟨⟨fun _ => half_nonneg, measurable_const⟩, by norm_num, by norm_num, half_nonneg, ?_, ?_, ?_⟩, fun p => ?_, ?_⟩
  iterate 3 (simp [V3.all]; norm_num)
  · dsimp only
    split
    · exact .inl rfl
    · exact .inr rfl
  · exact Measurable.ite (measurableSet_le measurable_dot measurable_const) measurable_const measurable_const

end LM.Transport
