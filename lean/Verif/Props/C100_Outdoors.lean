import Verif.Props.C86_Outdoors
/-
  C100 in scenes of separate triangles with materials and lights of all kinds.
-/
namespace LM.Transport
open MeasureTheory LM LM.Surface LM.Material LM.Light LM.MathF LM.Path LM.Render LM.Solid Set
open scoped ENNReal

variable {W : World} {Q : Query} {n : Int} {cam : Camera} {ps : List Part} {sgn : V3 ℝ → Bool} {junk : V3 ℝ} {sky : Option Int} {node : ℕ → Int} {M : ℕ → Aff ℝ} {Lt : ℕ → Light} {src : ℕ → Source}

/-! ### What is scattered of the light of the lights without extent -/

/-- A smooth component scatters what the lights shine on the surface, as its values in their directions. -/
theorem smooth_glow {m : Mat} {j : Int} (hm : W.materialAt j = some m) {c : ℕ} (hk : m.isSpecular c = some false) {B : V3 ℝ × V3 ℝ × V3 ℝ → V3 ℝ}
    (hBe : ∀ p wi wo, V3.dot wi wi = 1 → V3.dot wo wo = 1 → V3.dot wi (vertexAt ps sgn junk j p).geom.n ≠ 0 → m.eval (vertexAt ps sgn junk j p).geom wi wo c .EL false = some (B (p, wi, wo))) (i : Fin 3)
    (hsh : ∀ l < W.st.lights.length, Shines (finite Q) (vertexAt ps sgn junk) i (node l) (src l)) (p : V3 ℝ) {wi : V3 ℝ} (hwi : V3.dot wi wi = 1) (hw : V3.dot wi (vertexAt ps sgn junk j p).geom.n ≠ 0) :
    glowing W Q i node src (vertexAt ps sgn junk j p) wi c univ = ∑ l ∈ Finset.range W.st.lights.length, glare (finite Q) (vertexAt ps sgn junk) i (node l) (src l) (j, p) * (ENNReal.ofReal |V3.dot (toward (src l) (j, p)) (vertexAt ps sgn junk j p).geom.n| *
      (ENNReal.ofReal (shadingNormalCorrection (vertexAt ps sgn junk j p).geom wi (toward (src l) (j, p)) .EL) * ENNReal.ofReal (chan i (B (p, wi, toward (src l) (j, p)))))) := by
  haveI := singleton_v3'
  have hspec : isSpecularComponent W (vertexAt ps sgn junk j p) c = some false := by
    show (W.materialAt j).bind (fun m => m.isSpecular c) = _
    rw [hm]; exact hk
  unfold glowing
  rw [if_pos hspec, withDensity_apply _ MeasurableSet.univ, Measure.restrict_univ, shineOn, lintegral_finsetSum_measure]
  refine Finset.sum_congr rfl fun l hl => ?_
  have hu := (hsh l (Finset.mem_range.mp hl)).unit (j, p)
  show lintegral (match (src l).shine p with | none => 0 | some b => _) _ = _
  revert hu
  unfold glare toward
  dsimp only
  cases (src l).shine p with
  | none => intro _; simp
  | some b =>
    dsimp only
    show _ → lintegral (if Q.visible (vertexAt ps sgn junk j p) ⟨.light, node l, b.source⟩ = true then _ else _) _ = (if Q.visible (vertexAt ps sgn junk j p) ⟨.light, node l, b.source⟩ = true then _ else _) * _
    intro hu
    by_cases hv : Q.visible (vertexAt ps sgn junk j p) ⟨.light, node l, b.source⟩ = true
    · rw [if_pos hv, if_pos hv, lintegral_smul_measure, lintegral_dirac, smul_eq_mul]
      have hu : ENNReal.ofReal (chan i b.irradiance) ≠ 0 → V3.dot b.dir b.dir = 1 := fun h0 => hu (by show (if Q.visible (vertexAt ps sgn junk j p) ⟨.light, node l, b.source⟩ = true then _ else _) ≠ _; rw [if_pos hv]; exact h0)
      have hcos : cosineAt (vertexAt ps sgn junk j p).geom b.dir = |V3.dot b.dir (vertexAt ps sgn junk j p).geom.n| := by
        show |V3.dot (vertexAt ps sgn junk j p).geom.n b.dir| = _
        rw [V3.dot_comm]
      rw [hcos, ENNReal.ofReal_mul' (abs_nonneg _)]
      by_cases h0 : ENNReal.ofReal (chan i b.irradiance) = 0
      · rw [h0, zero_mul, zero_mul, zero_mul]
      · have e : evalContrbDirection W (vertexAt ps sgn junk j p) wi b.dir c .EL false = some (shadingNormalCorrection (vertexAt ps sgn junk j p).geom wi b.dir .EL • B (p, wi, b.dir)) := by
          show (W.materialAt j).bind (fun m => (m.eval (vertexAt ps sgn junk j p).geom wi b.dir c .EL false).map (shadingNormalCorrection (vertexAt ps sgn junk j p).geom wi b.dir .EL • ·)) = _
          rw [hm, Option.bind_some, hBe p wi b.dir hwi (hu h0) hw]; rfl
        rw [e, value_snc _ (snc_nonneg _ _ _), mul_assoc]
        rfl
    · rw [if_neg hv, if_neg hv]
      simp

theorem Gathers.glow (h : Room W (indoors Q) n cam ps sgn junk) {j : Int} {m : Mat} (hm : W.materialAt j = some m) {comps : Geom → V3 ℝ → Finset ℕ} (hg : Gathers (vertexAt ps sgn junk j) m comps) (i : Fin 3)
    (hsh : ∀ l < W.st.lights.length, Shines (finite Q) (vertexAt ps sgn junk) i (node l) (src l)) :
    ∃ G : V3 ℝ × V3 ℝ → ℝ≥0∞, Measurable G ∧ ∀ p wi, V3.dot wi wi = 1 → V3.dot wi (vertexAt ps sgn junk j p).geom.n ≠ 0 →
      ∑ c ∈ comps (vertexAt ps sgn junk j p).geom wi, glowing W Q i node src (vertexAt ps sgn junk j p) wi c univ = G (p, wi) := by
  classical
  have hsnc : Measurable fun q : V3 ℝ × V3 ℝ × V3 ℝ => shadingNormalCorrection (vertexAt ps sgn junk j q.1).geom q.2.1 q.2.2 .EL := measurable_snc' (g := fun p => (vertexAt ps sgn junk j p).geom) (h.normals j) (h.normals j) .EL
  obtain ⟨N, hs, hsub, hms⟩ := hg
  have hx : ∀ c, ∃ G : V3 ℝ × V3 ℝ → ℝ≥0∞, Measurable G ∧ (c < N → ∀ p wi, V3.dot wi wi = 1 → V3.dot wi (vertexAt ps sgn junk j p).geom.n ≠ 0 → glowing W Q i node src (vertexAt ps sgn junk j p) wi c univ = G (p, wi)) := fun c => by
    by_cases hc : c < N
    · rcases hs c hc with ⟨hk, B, hB, hBe⟩ | ⟨hk, _⟩
      · refine ⟨fun a => ∑ l ∈ Finset.range W.st.lights.length, glare (finite Q) (vertexAt ps sgn junk) i (node l) (src l) (j, a.1) * (ENNReal.ofReal |V3.dot (toward (src l) (j, a.1)) (vertexAt ps sgn junk j a.1).geom.n| *
          (ENNReal.ofReal (shadingNormalCorrection (vertexAt ps sgn junk j a.1).geom a.2 (toward (src l) (j, a.1)) .EL) * ENNReal.ofReal (chan i (B (a.1, a.2, toward (src l) (j, a.1)))))), ?_, fun _ p wi hwi hw => smooth_glow hm hk hBe i hsh p hwi hw⟩
        refine Finset.measurable_fun_sum _ fun l hl => ?_
        have hS := hsh l (Finset.mem_range.mp hl)
        have hat : Measurable fun a : V3 ℝ × V3 ℝ => ((j, a.1) : Spot) := measurable_const.prodMk measurable_fst
        have ht : Measurable fun a : V3 ℝ × V3 ℝ => toward (src l) (j, a.1) := hS.aim.comp hat
        have harr : Measurable fun a : V3 ℝ × V3 ℝ => (a.1, a.2, toward (src l) (j, a.1)) := measurable_fst.prodMk (measurable_snd.prodMk ht)
        exact (hS.dim.comp hat).mul ((continuous_abs.measurable.comp (measurable_dot3 ht ((h.normals j).comp measurable_fst))).ennreal_ofReal.mul
          ((Measurable.comp hsnc harr).ennreal_ofReal.mul ((measurable_chan i).comp (hB.comp harr)).ennreal_ofReal))
      · refine ⟨0, measurable_const, fun _ p wi _ _ => ?_⟩
        have hspec : isSpecularComponent W (vertexAt ps sgn junk j p) c = some true := by
          show (W.materialAt j).bind (fun m => m.isSpecular c) = _
          rw [hm]; exact hk
        unfold glowing
        rw [hspec, if_neg (by simp)]
        rfl
    · exact ⟨0, measurable_const, fun h => absurd h hc⟩
  choose G hG hGe using hx
  refine ⟨fun a => ∑ c ∈ Finset.range N, if a ∈ {q : V3 ℝ × V3 ℝ | c ∈ comps (vertexAt ps sgn junk j q.1).geom q.2} then G c a else 0, Finset.measurable_fun_sum _ fun c _ => Measurable.ite (hms c) (hG c) measurable_const, fun p wi hwi hw => ?_⟩
  beta_reduce
  rw [← Finset.sum_filter]
  refine Finset.sum_congr ?_ fun c hc => ?_
  · ext c
    simp only [Finset.mem_filter, mem_setOf_eq]
    exact ⟨fun hc => ⟨hsub p wi hc, hc⟩, fun hc => hc.2⟩
  · have hc' := Finset.mem_filter.mp hc
    exact hGe c (Finset.mem_range.mp hc'.1) p wi hwi hw

/-! ### The radiance -/

theorem AnyLights.emission (h : Room W (indoors Q) n cam ps sgn junk) (hs : Surroundings Q (faces ps) sky) (hl : AnyLights W ps cam sky node M Lt src) (i : Fin 3) : Adjoint.Meas (Transport.emission W (faces ps) (vertexAt ps sgn junk) i) := by
  have hb := hl.bulbs h hs i
  refine measurable_spot fun j => ?_
  have hpr : ∀ j p, (vertexAt ps sgn junk j p).primitive = j := fun j p => rfl
  by_cases hj : j ∈ (faces ps).map (·.1)
  · cases hL : W.lightAt j with
    | none => simp_rw [emission_none hpr i hL]; exact measurable_const
    | some L =>
      obtain ⟨l, hll, rfl⟩ := hb.only j hj L hL
      rcases hb.each l hll with ⟨_, _, sgn, junk, Ke, ts, e, _⟩ | ⟨_, hn, _⟩ | ⟨_, hn, _⟩
      · have hL' := hl.table.light l hll
        rw [e] at hL'
        simp_rw [emission_of hpr i hj hL']
        exact measurable_front' i Ke ((h.normals (node l)).comp measurable_fst) measurable_snd
      · exact absurd hj hn
      · exact absurd hj hn
  · have : ∀ q : V3 ℝ × V3 ℝ, Transport.emission W (faces ps) (vertexAt ps sgn junk) i (j, q.1) q.2 = 0 := fun q => if_neg hj
    simp_rw [this]
    exact measurable_const

/-- The light that arrives is a measurable function of the point and the direction, if what the surfaces add to it is. -/
theorem AnyLights.lit (h : Room W (indoors Q) n cam ps sgn junk) (hs : Surroundings Q (faces ps) sky) (hl : AnyLights W ps cam sky node M Lt src) {comps : SI → V3 ℝ → Finset ℕ} {m : Int → Mat} {C : Int → Geom → V3 ℝ → Finset ℕ}
    (hmat : ∀ a ∈ ps, W.materialAt a.prim = some (m a.prim)) (hcomps : ∀ j p wi, comps (vertexAt ps sgn junk j p) wi = C j (vertexAt ps sgn junk j p).geom wi) (hg : ∀ j, Gathers (vertexAt ps sgn junk j) (m j) (C j)) (i : Fin 3)
    (glow : SI → V3 ℝ → ℕ → ℝ≥0∞) (hglow : ∀ a ∈ ps, ∃ G : V3 ℝ × V3 ℝ → ℝ≥0∞, Measurable G ∧ ∀ p wi, V3.dot wi wi = 1 → V3.dot wi (vertexAt ps sgn junk a.prim p).geom.n ≠ 0 →
      ∑ c ∈ C a.prim (vertexAt ps sgn junk a.prim p).geom wi, glow (vertexAt ps sgn junk a.prim p) wi c = G (p, wi)) (k : ℕ) :
    ∃ I : V3 ℝ × V3 ℝ → ℝ≥0∞, Measurable I ∧ ∀ sp d, (optics W Q i comps).lit glow k sp d = I (sp.geom.p, d) := by
  classical
  have hE := hl.emission h hs i
  have hS := (hl.bulbs h hs i).skies_meas
  induction k with
  | zero => exact ⟨0, measurable_const, fun _ _ => rfl⟩
  | succ k ih =>
    obtain ⟨I, hI, hIe⟩ := ih
    have hx : ∀ j, ∃ G : V3 ℝ × V3 ℝ → ℝ≥0∞, Measurable G ∧ ((∃ a ∈ ps, a.prim = j) → ∀ p wi, V3.dot wi wi = 1 → V3.dot wi (vertexAt ps sgn junk j p).geom.n ≠ 0 →
        ∑ c ∈ C j (vertexAt ps sgn junk j p).geom wi, (∫⁻ d, I (p, d) ∂Transport.scattered W i (vertexAt ps sgn junk j p) wi c + if k = 0 then 0 else glow (vertexAt ps sgn junk j p) wi c) = G (p, wi)) := fun j => by
      by_cases hj : ∃ a ∈ ps, a.prim = j
      · obtain ⟨a, ha, rfl⟩ := hj
        obtain ⟨G, h1, h2⟩ := (hg a.prim).integral h (hmat a ha) i hI
        obtain ⟨G', h3, h4⟩ := hglow a ha
        refine ⟨fun q => G q + if k = 0 then 0 else G' q, ?_, fun _ p wi hwi hw => ?_⟩
        · refine h1.add ?_
          split
          · exact measurable_const
          · exact h3
        · rw [Finset.sum_add_distrib, h2 p wi hwi hw]
          congr 1
          split
          · simp
          · exact h4 p wi hwi hw
      · exact ⟨0, measurable_const, fun h => absurd h hj⟩
    choose G hG hGe using hx
    have hGm : Measurable fun q : Spot × V3 ℝ => G q.1.1 (q.1.2, q.2) := measurable_spot (F := fun x w => G x.1 (x.2, w)) fun j => hG j
    have hsum : Measurable fun q : (V3 ℝ × V3 ℝ) × Spot => Transport.emission W (faces ps) (vertexAt ps sgn junk) i q.2 (-q.1.2) + G q.2.1 (q.2.2, -q.1.2) := by
      have harr : Measurable fun q : (V3 ℝ × V3 ℝ) × Spot => (q.2, -q.1.2) := measurable_snd.prodMk (measurable_neg3.comp (measurable_snd.comp measurable_fst))
      exact (Measurable.comp hE harr).add (hGm.comp harr)
    have hfin := h.faceted.measurable_hit (α := V3 ℝ × V3 ℝ) (o := fun a => a.1) (d := fun a => a.2) (F := fun a x => Transport.emission W (faces ps) (vertexAt ps sgn junk) i x (-a.2) + G x.1 (x.2, -a.2)) measurable_fst measurable_snd hsum
    have hms : MeasurableSet {a : V3 ℝ × V3 ℝ | V3.dot a.2 a.2 = 1} := (measurableSet_eq_fun measurable_dot measurable_const).preimage measurable_snd
    have hSm : Measurable fun a : V3 ℝ × V3 ℝ => skies W (skyFrom Q i sky node Lt) (0, a.1) a.2 := by
      have harr : Measurable fun a : V3 ℝ × V3 ℝ => (((0, a.1) : Spot), a.2) := (measurable_const.prodMk measurable_fst).prodMk measurable_snd
      have := Measurable.comp (g := fun q : Spot × V3 ℝ => skies W (skyFrom Q i sky node Lt) q.1 q.2) hS harr
      exact this
    refine ⟨fun a => (match hitOf (indoors Q) a.1 a.2 with | none => 0 | some x => Transport.emission W (faces ps) (vertexAt ps sgn junk) i x (-a.2) + G x.1 (x.2, -a.2)) +
      (if a ∈ {a : V3 ℝ × V3 ℝ | V3.dot a.2 a.2 = 1} then skies W (skyFrom Q i sky node Lt) (0, a.1) a.2 else 0), hfin.add (Measurable.ite hms hSm measurable_const), fun sp d => ?_⟩
    show (match Q.isect sp.geom.p d with | none => 0 | some hit => emitted W i hit (-d) + if hit.geom.infinite then 0 else ∑ c ∈ comps hit (-d), (∫⁻ d', (optics W Q i comps).lit glow k hit d' ∂Transport.scattered W i hit (-d) c + if k = 0 then 0 else glow hit (-d) c)) = _
    beta_reduce
    have hsk : (if (sp.geom.p, d) ∈ {a : V3 ℝ × V3 ℝ | V3.dot a.2 a.2 = 1} then skies W (skyFrom Q i sky node Lt) (0, sp.geom.p) d else 0) = Transport.fromSky W Q i sp.geom.p d := by
      by_cases hd : V3.dot d d = 1
      · rw [if_pos (show (sp.geom.p, d) ∈ {a : V3 ℝ × V3 ℝ | V3.dot a.2 a.2 = 1} from hd)]
        exact (hl.fromSky h hs i (0, sp.geom.p) d hd).symm
      · rw [if_neg (show (sp.geom.p, d) ∉ {a : V3 ℝ × V3 ℝ | V3.dot a.2 a.2 = 1} from hd)]
        unfold Transport.fromSky
        rw [hs.unit _ _ hd]
    rw [hsk]
    unfold Transport.fromSky
    cases hi : Q.isect sp.geom.p d with
    | none =>
      have h1 : (indoors Q).isect sp.geom.p d = none := by
        cases e3 : (indoors Q).isect sp.geom.p d with
        | none => rfl
        | some h' => rw [(indoors_some.mp e3).1] at hi; cases hi
      have h2 : hitOf (indoors Q) sp.geom.p d = none := by simp [hitOf, h1]
      rw [h2, add_zero]
    | some hit =>
      obtain ⟨hd, ⟨e, hf, _⟩ | ⟨_, _, _, hf, _⟩⟩ := hs.cases h hi
      · have h2 : hitOf (indoors Q) sp.geom.p d = some (hit.primitive, hit.geom.p) := by simp [hitOf, e]
        rw [h2]
        dsimp only
        rw [hf, if_neg (by simp : ¬ (false = true)), if_neg (by simp : ¬ (false = true)), add_zero]
        obtain ⟨⟨a, ha, hja⟩, hgr⟩ := h.face e
        have hs := h.faceted.same _ _ _ hd e
        set j := hit.primitive with hjd
        set p := hit.geom.p with hpd
        have hdn : V3.dot (-d) (-d) = 1 := by simpa [V3.dot] using hd
        have hgn : V3.dot (-d) (vertexAt ps sgn junk j p).geom.n ≠ 0 := by
          rw [← hs, V3.dot_comm, V3.dot_neg_right, V3.dot_comm]; exact neg_ne_zero.mpr hgr
        have hj : j ∈ (faces ps).map (·.1) := prims_faces.mpr ⟨a, ha, hja.symm⟩
        rw [hs, hcomps, ← hGe j ⟨a, ha, hja.symm⟩ p (-d) hdn hgn]
        congr 1
        · exact (if_pos hj).symm
        · refine Finset.sum_congr rfl fun c _ => ?_
          congr 1
          refine lintegral_congr fun d' => ?_
          rw [hIe]; rfl
      · have h1 : (indoors Q).isect sp.geom.p d = none := by
          cases e3 : (indoors Q).isect sp.geom.p d with
          | none => rfl
          | some h' =>
            obtain ⟨h5, h6⟩ := indoors_some.mp e3
            rw [hi] at h5; cases h5
            rw [hf] at h6; cases h6
        have h2 : hitOf (indoors Q) sp.geom.p d = none := by simp [hitOf, h1]
        rw [h2]
        dsimp only
        rw [if_pos hf, if_pos hf, add_zero, zero_add]

theorem dressed_regular (h : Room W (indoors Q) n cam ps sgn junk) (hs : Surroundings Q (faces ps) sky) {skin : Int → Skin} (hp : Dress W ps sgn junk skin) (hl : AnyLights W ps cam sky node M Lt src) : Regular W Q n cam (compsOf skin) := by
  refine ⟨h.cameraAt, h.proper, rfl, fun o d hit hd hi hf => ?_, hl.infinite h hs⟩
  obtain ⟨_, ⟨e, _⟩ | ⟨_, _, _, hf', _⟩⟩ := hs.cases h hi
  · obtain ⟨⟨a, ha, hja⟩, hgr⟩ := h.face e
    have hs := h.faceted.same o d hit hd e
    have hdn : V3.dot (-d) (-d) = 1 := by simpa [V3.dot] using hd
    have hgn : V3.dot (-d) (vertexAt ps sgn junk hit.primitive hit.geom.p).geom.n ≠ 0 := by
      rw [← hs, V3.dot_comm, V3.dot_neg_right, V3.dot_comm]; exact neg_ne_zero.mpr hgr
    have hk := Skin.ok (hp.sound hit.primitive) hit.geom.p (-d) (h.on _ _) hdn hgn
    have hon := h.on hit.primitive hit.geom.p
    have hcomp : compsOf skin hit (-d) = (skin hit.primitive).comps hit.geom (-d) := by
      have hkind : hit.kind = .surface := by rw [hs]; rfl
      simp only [compsOf, hkind]
    rw [← hs] at hk hon
    refine ⟨by rw [hs]; rfl, by rw [hs]; rfl, hon, hgr, (skin hit.primitive).mat, by rw [hja]; exact hp.material a ha, ?_⟩
    rw [hcomp]; exact hk
  · rw [hf] at hf'; cases hf'

theorem dressed_incoming (h : Room W (indoors Q) n cam ps sgn junk) (hs : Surroundings Q (faces ps) sky) {skin : Int → Skin} (hp : Dress W ps sgn junk skin) (hl : AnyLights W ps cam sky node M Lt src) (i : Fin 3) (k : ℕ) (sp : SI) : Measurable ((optics W Q i (compsOf skin)).incoming k sp) := by
  have hgath : ∀ j, Gathers (vertexAt ps sgn junk j) (skin j).mat fun g wi => (skin j).comps g wi := fun j => Skin.gathers h (hp.sound j)
  obtain ⟨I, hI, hIe⟩ := AnyLights.lit h hs hl (comps := compsOf skin) (m := fun j => (skin j).mat) (C := fun j g wi => (skin j).comps g wi) hp.material (fun _ _ _ => rfl) hgath i (fun sp wi c => glowing W Q i node (fun _ => .extended) sp wi c univ)
    (fun a ha => (hgath a.prim).glow h (hp.material a ha) i fun l _ => ⟨measurable_const, measurable_const, fun x hx => absurd rfl hx⟩) k
  refine (congrArg Measurable (funext fun d => ?_)).mp (hI.comp (measurable_const (a := sp.geom.p) |>.prodMk measurable_id))
  exact (hIe sp d).symm.trans (lit_extended _ k sp d)

/-- C100. The path tracer with light sampling, in every scene of separate triangles with lights of all kinds (any number of area lights, point lights and directional lights, with or without an environment light, constant or given by a map), whose
    surfaces are diffuse, glossy, mirrors, transparent, mixtures of these of either kind, glass, or have the material of OBJ models, whose masks cut holes: its expected value on the film is the integral, over the film, of the radiance arriving along the primary rays by
    light paths with the given number of vertices, and, if primary rays are sampled on the whole film, the images of the point lights and directional lights themselves. Mirrors and glass show lights with extent only: `radianceLit` has no light of a point light or
    directional light that such a surface reflects.
    Missing: as for `C100_scene_partial`. -/
theorem C100_dressed_partial (h : Room W (indoors Q) n cam ps sgn junk) (hs : Surroundings Q (faces ps) sky) {skin : Int → Skin} (hp : Dress W ps sgn junk skin) (hl : AnyLights W ps cam sky node M Lt src) (i : Fin 3)
    (cfg : Cfg) (hmode : cfg.mode ≠ .naive) (dir : ℝ × ℝ → V3 ℝ) (hdir : ∀ q, primaryRay cam q.1 q.2 = some (dir q)) (H : ℝ × ℝ → ℝ≥0∞) (hH : Measurable H) (u : RaySampleU) (uc : ℝ) (rs : ℕ → Rnd) :
    average (cfg.maxVerts - 1) 1 rs (fun rs' => measured i H (ptSample W Q cfg u uc rs')) = ∫⁻ q, H q * radianceLit W Q i (compsOf skin) node src (cfg.maxVerts - 1) (camVertex W n cam) (dir q) ∂uniform2 +
      if cfg.maxVerts - 1 = 0 ∨ cfg.pixel = true then 0 else ∫⁻ d, onFilm W H 1 (0, 0) d ∂glowing W Q i node src (camVertex W n cam) 0 0 := by
  have hgath : ∀ j, Gathers (vertexAt ps sgn junk j) (skin j).mat fun g wi => (skin j).comps g wi := fun j => Skin.gathers h (hp.sound j)
  have hsh : ∀ l < W.st.lights.length, Shines (finite Q) (vertexAt ps sgn junk) i (node l) (src l) := fun l hll => (hl.bulbs h hs i).shines hll
  have hrad := AnyLights.lit h hs hl (comps := compsOf skin) (m := fun j => (skin j).mat) (C := fun j g wi => (skin j).comps g wi) hp.material (fun _ _ _ => rfl) hgath i (fun sp wi c => glowing W Q i node src sp wi c univ)
    fun a ha => (hgath a.prim).glow h (hp.material a ha) i hsh
  refine C100_scene_partial (dressed_regular h hs hp hl) h.camera hl.table src i (fun _ _ hv => hl.litBy h hs i hv) (fun k sp _ _ => dressed_incoming h hs hp hl i k sp) (fun k sp _ _ => ?_) cfg hmode dir hdir H hH u uc rs
  obtain ⟨I, hI, hIe⟩ := hrad k
  refine (congrArg Measurable (funext fun d => ?_)).mp (hI.comp (measurable_const (a := sp.geom.p) |>.prodMk measurable_id))
  exact (hIe sp d).symm

/-- C100. The path tracer without light sampling, in the same scenes: it computes the radiance from the lights with extent.
    Missing: the light of the point lights and directional lights (`C100_negation_naive`). -/
theorem C100_dressed_naive_partial (h : Room W (indoors Q) n cam ps sgn junk) (hs : Surroundings Q (faces ps) sky) {skin : Int → Skin} (hp : Dress W ps sgn junk skin) (hl : AnyLights W ps cam sky node M Lt src) (i : Fin 3)
    (pixel : Bool) (N : ℕ) (dir : ℝ × ℝ → V3 ℝ) (hdir : ∀ q, primaryRay cam q.1 q.2 = some (dir q)) (H : ℝ × ℝ → ℝ≥0∞) (hH : Measurable H) (u : RaySampleU) (uc : ℝ) (rs : ℕ → Rnd) :
    average (N - 1) 1 rs (fun rs' => measured i H (ptSample W Q ⟨.naive, pixel, N⟩ u uc rs')) = ∫⁻ q, H q * (optics W Q i (compsOf skin)).incoming (N - 1) (camVertex W n cam) (dir q) ∂uniform2 := by
  have hR := dressed_regular h hs hp hl
  exact C82_pt W Q _ (connection W Q) i _ (hR.sound i fun k sp _ _ => dressed_incoming h hs hp hl i k sp) ⟨.naive, pixel, N⟩ (fun h => absurd rfl h) n cam h.camera hR.camera hR.proper (.inl ⟨rfl, rfl⟩)
    (by show 0 ∈ compsOf skin _ _; rw [hR.single]; simp) dir hdir H hH u uc rs

/-! ### Concrete scene: that of C86_Outdoors, with any material on two of the triangles -/

noncomputable def exAny (s : Skin) : World := { exDay s (exAllLight 1) with
  st := exAll.st
  light := exAllLight }

theorem exAnyRoom (s : Skin) : Room (exAny s) (indoors exDayQ) 3 exCam exParts (fun _ => false) 0 :=
  { exRoom with camera := rfl, cameraAt := rfl, traced := skyQ_indoors exParts_separate (fun _ _ => rfl) 4 }

theorem exAnyDress {s : Skin} (hs : s.Sound (vertexAt exParts (fun _ => false) 0 2)) : Dress (exAny s) exParts (fun _ => false) 0 (exSkin s) where
  material a ha := by
    rcases (by simpa [exParts] using ha : a = ⟨1, 1, glowTri⟩ ∨ a = ⟨2, 1, lampTri⟩ ∨ a = ⟨2, 1, shadeTri⟩) with rfl | rfl | rfl <;> rfl
  sound := (exDress hs).sound

theorem exAnyLights (s : Skin) : AnyLights (exAny s) exParts exCam (some 4) exAllNode (fun _ => 1) exAllLight exAllSrc where
  table := ⟨exAllLights.table.1, exAllLights.table.2, exAllLights.table.3, exAllLights.table.4⟩
  each := exAllLights.each
  only := exAllLights.only
  env := exAllLights.env

/-- Glass, with an area light, under a grey sky, with a bulb and the sun. -/
example (i : Fin 3) (mode : Mode) (hmode : mode ≠ .naive) (N : ℕ) (dir : ℝ × ℝ → V3 ℝ) (hdir : ∀ q, primaryRay exCam q.1 q.2 = some (dir q)) (H : ℝ × ℝ → ℝ≥0∞) (hH : Measurable H) (u : RaySampleU) (uc : ℝ) (rs : ℕ → Rnd) :
    average (N - 1) 1 rs (fun rs' => measured i H (ptSample (exAny (.glass (3 / 2))) exDayQ ⟨mode, true, N⟩ u uc rs')) =
      ∫⁻ q, H q * radianceLit (exAny (.glass (3 / 2))) exDayQ i (compsOf (exSkin (.glass (3 / 2)))) exAllNode exAllSrc (N - 1) (camVertex (exAny (.glass (3 / 2))) 3 exCam) (dir q) ∂uniform2 :=
  (C100_dressed_partial (exAnyRoom _) exAllSky (exAnyDress (by show (0 : ℝ) < 3 / 2; norm_num)) (exAnyLights _) i ⟨mode, true, N⟩ hmode dir hdir H hH u uc rs).trans (by rw [if_pos (.inr rfl), add_zero])

/-- With rays on the whole film. -/
example (i : Fin 3) (mode : Mode) (hmode : mode ≠ .naive) (N : ℕ) (dir : ℝ × ℝ → V3 ℝ) (hdir : ∀ q, primaryRay exCam q.1 q.2 = some (dir q)) (H : ℝ × ℝ → ℝ≥0∞) (hH : Measurable H) (u : RaySampleU) (uc : ℝ) (rs : ℕ → Rnd) :
    average (N + 1) 1 rs (fun rs' => measured i H (ptSample (exAny (.glass (3 / 2))) exDayQ ⟨mode, false, N + 2⟩ u uc rs')) =
      ∫⁻ q, H q * radianceLit (exAny (.glass (3 / 2))) exDayQ i (compsOf (exSkin (.glass (3 / 2)))) exAllNode exAllSrc (N + 1) (camVertex (exAny (.glass (3 / 2))) 3 exCam) (dir q) ∂uniform2 +
        ∫⁻ d, onFilm (exAny (.glass (3 / 2))) H 1 (0, 0) d ∂glowing (exAny (.glass (3 / 2))) exDayQ i exAllNode exAllSrc (camVertex (exAny (.glass (3 / 2))) 3 exCam) 0 0 :=
  (C100_dressed_partial (exAnyRoom _) exAllSky (exAnyDress (by show (0 : ℝ) < 3 / 2; norm_num)) (exAnyLights _) i ⟨mode, false, N + 2⟩ hmode dir hdir H hH u uc rs).trans (by rw [if_neg (by simp)]; rfl)

/-- Without light sampling. -/
example (i : Fin 3) (px : Bool) (N : ℕ) (dir : ℝ × ℝ → V3 ℝ) (hdir : ∀ q, primaryRay exCam q.1 q.2 = some (dir q)) (H : ℝ × ℝ → ℝ≥0∞) (hH : Measurable H) (u : RaySampleU) (uc : ℝ) (rs : ℕ → Rnd) :
    average (N - 1) 1 rs (fun rs' => measured i H (ptSample (exAny (.glass (3 / 2))) exDayQ ⟨.naive, px, N⟩ u uc rs')) =
      ∫⁻ q, H q * (optics (exAny (.glass (3 / 2))) exDayQ i (compsOf (exSkin (.glass (3 / 2))))).incoming (N - 1) (camVertex (exAny (.glass (3 / 2))) 3 exCam) (dir q) ∂uniform2 :=
  C100_dressed_naive_partial (exAnyRoom _) exAllSky (exAnyDress (by show (0 : ℝ) < 3 / 2; norm_num)) (exAnyLights _) i px N dir hdir H hH u uc rs

end LM.Transport
