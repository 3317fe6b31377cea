import Verif.Props.C86_Sky
import Verif.Props.C86_Example
import Verif.Props.C82_Sky
/-
  C86: a concrete scene with an environment light: a triangle at z = -1, diffuse on both sides with albedo 1/2, under a constant environment of radiance 1, and a camera that looks down on it.
-/
namespace LM.Transport
open MeasureTheory LM LM.Surface LM.Material LM.Light LM.MathF LM.Path LM.Render LM.Solid Set
open scoped ENNReal

noncomputable def exDomeOps : List (Scene.Op (Aff ℝ)) :=
  [.createPrimitive ⟨some 0, some 0, none, none, none⟩, .createPrimitive ⟨none, none, some 0, none, none⟩, .createPrimitive ⟨none, none, none, some 0, none⟩, .addChild 0 1, .addChild 0 2, .addChild 0 3]

noncomputable def dome : Light := Light.envconst (fun _ => false) 0 (V3.all 1) 0 2

noncomputable def exDome : World := { exGlowing with
  st := Scene.buildLights (Scene.run (fun _ => true) Scene.reset exDomeOps) [(0, 1), (1, 1), (2, 1), (3, 1)]
  light := fun _ => dome }

/-- A ray that meets the triangle, from either side. -/
def MeetsFloor (o d : V3 ℝ) : Prop := V3.dot d d = 1 ∧ d.z ≠ 0 ∧ 0 < (-1 - o.z) / d.z ∧ Inside glowTri (atHeight (-1) o d)

open Classical in
/-- Rays meet the triangle or the environment. -/
noncomputable def exDomeQ : Query where
  isect o d := if MeetsFloor o d then some (glowAt 1 (atHeight (-1) o d)) else if V3.dot d d = 1 then some ⟨.light, 2, makeInfinite (-d) 0 0⟩ else none
  visible s1 s2 := if s2.geom.infinite then decide (¬ MeetsFloor s1.geom.p (-s2.geom.wo))
    else decide (MeetsFloor s2.geom.p (dirOf (s1.geom.p - s2.geom.p)) ∧ atHeight (-1) s2.geom.p (dirOf (s1.geom.p - s2.geom.p)) = s1.geom.p)

noncomputable def domeFaces : List (Int × Tri) := [(1, glowTri)]

theorem dome_isect {o d : V3 ℝ} {h : SI} (e : exDomeQ.isect o d = some h) : (MeetsFloor o d ∧ h = glowAt 1 (atHeight (-1) o d)) ∨ (¬ MeetsFloor o d ∧ V3.dot d d = 1 ∧ h = ⟨.light, 2, makeInfinite (-d) 0 0⟩) := by
  unfold exDomeQ at e
  dsimp only at e
  split at e
  · rename_i hc; exact .inl ⟨hc, (Option.some.inj e).symm⟩
  · rename_i hc
    split at e
    · rename_i hd; exact .inr ⟨hc, hd, (Option.some.inj e).symm⟩
    · cases e

theorem dome_glow_finite (j : Int) (p : V3 ℝ) : (glowAt j p).geom.infinite = false := (exGlow_faceted.at_point j p).2.2.1

open Classical in
theorem dome_finite (o d : V3 ℝ) : (finite exDomeQ).isect o d = if MeetsFloor o d then some (glowAt 1 (atHeight (-1) o d)) else none := by
  by_cases hc : MeetsFloor o d
  · have e : exDomeQ.isect o d = some (glowAt 1 (atHeight (-1) o d)) := by simp only [exDomeQ, if_pos hc]
    rw [finite_some e, dome_glow_finite, if_pos hc]; rfl
  · rw [if_neg hc]
    by_cases hd : V3.dot d d = 1
    · have e : exDomeQ.isect o d = some ⟨.light, 2, makeInfinite (-d) 0 0⟩ := by simp only [exDomeQ, if_neg hc, if_pos hd]
      rw [finite_some e]; rfl
    · exact finite_none (by simp only [exDomeQ, if_neg hc, if_neg hd])

theorem dome_some {o d : V3 ℝ} {h : SI} (e : (finite exDomeQ).isect o d = some h) : MeetsFloor o d ∧ h = glowAt 1 (atHeight (-1) o d) := by
  rw [dome_finite] at e
  split at e
  · rename_i hc; exact ⟨hc, (Option.some.inj e).symm⟩
  · cases e

theorem dome_hit (o d p : V3 ℝ) (j : Int) : hitOf (finite exDomeQ) o d = some (j, p) ↔ j = 1 ∧ MeetsFloor o d ∧ p = atHeight (-1) o d := by
  unfold hitOf
  rw [dome_finite]
  split
  · rename_i hc
    rw [Option.map_some, glow_p]
    simp only [Option.some.injEq, Prod.mk.injEq, hc, true_and]
    exact ⟨fun h => ⟨h.1.symm, h.2.symm⟩, fun h => ⟨h.1.symm, h.2.symm⟩⟩
  · rename_i hc
    simp [hc]

theorem dome_none (o d : V3 ℝ) : hitOf (finite exDomeQ) o d = none ↔ ¬ MeetsFloor o d := by
  unfold hitOf
  rw [dome_finite]
  split <;> simp [*]

theorem dome_face {g : Int × Tri} (hg : g ∈ domeFaces) : g = (1, glowTri) := by simpa [domeFaces] using hg
theorem dome_faces {j : Int} (hj : j ∈ domeFaces.map (·.1)) : j = 1 := by simpa [domeFaces] using hj

theorem measurable_meets_floor : MeasurableSet {q : V3 ℝ × V3 ℝ | MeetsFloor q.1 q.2} := by
  have hz1 : Measurable fun q : V3 ℝ × V3 ℝ => q.1.z := measurable_z.comp measurable_fst
  have hz2 : Measurable fun q : V3 ℝ × V3 ℝ => q.2.z := measurable_z.comp measurable_snd
  exact (measurableSet_eq_fun (measurable_dot3 measurable_snd measurable_snd) measurable_const).inter ((measurableSet_eq_fun hz2 measurable_const).compl.inter
    ((measurableSet_lt measurable_const ((measurable_const.sub hz1).div hz2)).inter (measurable_inside'.preimage (measurable_atHeight' (-1)))))

theorem dome_once (k' : ℕ) (t' : Tri) (p : V3 ℝ) (hk : domeFaces[k']? = some ((glowAt 1 p).primitive, t')) : k' = 0 := by
  match k', hk with
  | 0, _ => rfl
  | k + 1, hk => simp [domeFaces] at hk

theorem exDome_faceted : Faceted (finite exDomeQ) domeFaces glowAt where
  area g hg := by
    rw [dome_face hg]
    simp [twiceArea, glowTri_cross, V3.dot]
  at_point := exGlow_faceted.at_point
  normal g hg p _ := by
    left
    rw [dome_face hg, glow_gn, glowTri_cross]; ext <;> simp [dirOf, V3.dot]
  same o d h _ e := by
    obtain ⟨_, rfl⟩ := dome_some e
    rw [glow_p]; rfl
  ahead o d h _ e := by
    obtain ⟨hm, rfl⟩ := dome_some e
    exact ⟨_, hm.2.2.1, by rw [glow_p]; rfl⟩
  once o := by
    refine Filter.Eventually.of_forall fun d h e => ?_
    obtain ⟨hm, rfl⟩ := dome_some e
    exact ⟨0, glowTri, rfl, by rw [glow_p]; exact hm.2.2.2, fun k' t' hk _ => dome_once k' t' _ hk⟩
  both s hs t ht p q hp hq h1 h2 := by
    rw [dome_face hs] at hp h1
    rw [dome_face ht] at hq
    exact absurd (by rw [glowTri_cross]; simp [V3.dot, ((glowTri_inside p).mp hp).2.2.2, ((glowTri_inside q).mp hq).2.2.2]) h1
  meets j := by
    simp_rw [dome_hit]
    by_cases h1 : j = 1
    · refine (congrArg MeasurableSet (Set.ext fun q => ?_)).mp measurable_meets_floor
      simp only [mem_ofPred_eq, h1, true_and]
      exact ⟨fun h => ⟨_, h, rfl⟩, fun ⟨_, h, _⟩ => h⟩
    · simp [h1]
  point j := ⟨fun q => atHeight (-1) q.1 q.2, measurable_atHeight' _, fun q p h => ((dome_hit _ _ _ _).mp h).2.2⟩
  gn := exGlow_faceted.gn

theorem exDome_material : exDome.materialAt 1 = some (diffuse fun _ => V3.all (1 / 2)) := rfl
theorem exDome_light : exDome.lightAt 2 = some dome := rfl
theorem exDome_dark : exDome.lightAt 1 = none := rfl
theorem dome_sub {j : Int} (hj : j ∈ domeFaces.map (·.1)) : j ∈ exFaces.map (·.1) := by rw [dome_faces hj]; simp [exFaces]

theorem exDome_matte : Matte exDome (finite exDomeQ) 3 exCam domeFaces glowAt (fun _ => diffuse fun _ => V3.all (1 / 2)) (fun _ => {0}) glowF where
  camera := rfl
  cameraAt := rfl
  proper := exCam_proper
  faceted := exDome_faceted
  face o d h _ e := by
    obtain ⟨hm, rfl⟩ := dome_some e
    exact ⟨by simp [domeFaces, glowAt], (glow_dot _ _ _).mpr hm.2.1⟩
  surface j hj p := by
    refine ⟨rfl, glow_on j p, ?_⟩
    rw [dome_faces hj]; exact exDome_material
  normal := exGlow_matte.normal
  material j hj := exGlow_matte.material j (dome_sub hj)
  eval j hj := exGlow_matte.eval j (dome_sub hj)
  measurable := exGlow_matte.measurable
  reciprocal j hj := exGlow_matte.reciprocal j (dome_sub hj)
  sight g hg := by
    rw [dome_face hg]
    refine (inside_ae glowTri).mono fun p hp => ⟨?_, ?_⟩
    · have : (toEye exCam (p - exCam.position)).z = p.z := by simp [toEye, exCam, V3.dot]
      rw [this, ((glowTri_inside p).mp hp).2.2.2]; norm_num
    · unfold Sees
      rw [dome_hit]
      show exDomeQ.visible (glowAt 1 p) (camVertex exDome 3 exCam) = true ↔ _
      have hi : (camVertex exDome 3 exCam).geom.infinite = false := rfl
      simp only [exDomeQ, hi, Bool.false_eq_true, if_false, decide_eq_true_eq, glow_p]
      exact ⟨fun h => ⟨trivial, h.1, h.2.symm⟩, fun h => ⟨h.2.1, h.2.2.symm⟩⟩

/-- The environment light meets the requirements. -/
theorem exDome_sky : SkyLamp (finite exDomeQ) domeFaces (fun _ => V3.all 1) (fun _ => false) 0 2 where
  nonneg _ _ := ⟨zero_le_one, zero_le_one, zero_le_one⟩
  measurable _ := measurable_const
  pos := two_pos
  swept := solidAngle_unit.mono fun d hd => {
    unit := hd
    pos := two_pos
    within := fun g hg p hp => by
      rw [dome_face hg] at hp
      obtain ⟨h1, h2, h3, h4⟩ := (glowTri_inside p).mp hp
      simp only [V3.dot, sub_zero, h4]
      nlinarith
    once := fun u v _ => Filter.Eventually.of_forall fun q h e => by
      obtain ⟨hm, rfl⟩ := dome_some e
      refine ⟨0, glowTri, rfl, by rw [glow_p]; exact hm.2.2.2, ?_, fun k' t' hk _ => dome_once k' t' _ hk⟩
      rw [glowTri_cross]
      simpa [V3.dot] using hm.2.1 }
  seen g hg := by
    rw [dome_face hg]
    refine (inside_ae glowTri).mono fun p hp => ?_
    obtain ⟨h1, h2, h3, h4⟩ := (glowTri_inside p).mp hp
    have hz := grazing_null (n := (⟨0, 0, 1⟩ : V3 ℝ)) (fun h => by have := congrArg V3.z h; simp at this)
    filter_upwards [solidAngle_unit, hz] with d hd hz
    have hz : d.z ≠ 0 := by simpa [V3.dot] using hz
    have hk : 0 < V3.dot (p - 0) d + 2 := by
      simp only [V3.dot, sub_zero] at hd ⊢
      nlinarith [sq_nonneg (p.x + d.x), sq_nonneg (p.y + d.y), sq_nonneg (p.z + d.z)]
    rw [dome_hit, dome_none]
    have hs : (-1 - (p - (V3.dot (p - 0) d + 2) • d).z) / d.z = V3.dot (p - 0) d + 2 := by
      rw [V3.sub_z, V3.smul_z, h4]
      field_simp
      ring
    have ha : atHeight (-1) (p - (V3.dot (p - 0) d + 2) • d) d = p := by
      unfold atHeight
      rw [hs]; abel
    refine iff_of_true ⟨rfl, ⟨hd, hz, by rw [hs]; exact hk, by rw [ha]; exact hp⟩, ha.symm⟩ fun hm => ?_
    have := hm.2.2.1
    rw [h4] at this
    simp at this
  sign := by simp

theorem dome_outside : (2 : Int) ∉ domeFaces.map (·.1) := by simp [domeFaces]
theorem exDome_one : exDome.st.lights.length = 1 := rfl

theorem exDome_regular : Regular exDome exDomeQ 3 exCam exComps where
  camera := rfl
  proper := exCam_proper
  single := rfl
  surface o d h hd e hf := by
    rcases dome_isect e with ⟨hm, rfl⟩ | ⟨_, _, rfl⟩
    · refine ⟨rfl, (exGlow_faceted.at_point _ _).2.2.2, glow_on _ _, (glow_dot _ _ _).mpr hm.2.1, _, exDome_material, diffuse_ok _ _ _ (glow_on _ _) ?_ half_nonneg⟩
      rw [glow_dot]
      simpa using hm.2.1
    · cases hf
  infinite o d h hd e hf := by
    rcases dome_isect e with ⟨hm, rfl⟩ | ⟨_, _, rfl⟩
    · rw [dome_glow_finite] at hf; cases hf
    · exact ⟨rfl, rfl⟩

theorem dome_sees (o d : V3 ℝ) : SeesSky exDomeQ 2 o d ↔ ¬ MeetsFloor o d ∧ V3.dot d d = 1 := by
  constructor
  · rintro ⟨h, e, hp⟩
    rcases dome_isect e with ⟨hm, rfl⟩ | ⟨hn, hd, rfl⟩
    · cases hp
    · exact ⟨hn, hd⟩
  · rintro ⟨hn, hd⟩
    exact ⟨⟨.light, 2, makeInfinite (-d) 0 0⟩, by simp only [exDomeQ, if_neg hn, if_pos hd], rfl⟩

theorem exDome_scene : SkyScene exDome exDomeQ 3 exCam exComps 2 1 (fun _ => false) 0 (V3.all 1) 0 2 where
  regular := exDome_regular
  camera := rfl
  one := rfl
  entry := rfl
  index := rfl
  light := rfl
  radius := two_pos
  nonneg := ⟨zero_le_one, zero_le_one, zero_le_one⟩
  only o d h e hs := by
    rcases dome_isect e with ⟨hm, rfl⟩ | ⟨_, _, rfl⟩
    · rw [show (glowAt 1 (atHeight (-1) o d)).primitive = 1 from rfl, exDome_dark] at hs; cases hs
    · rfl
  sky sp wi hv := by
    refine ⟨?_, fun d h e hp => ?_, fun wo hwo => ?_, ?_⟩
    · rcases hv with ⟨rfl, _⟩ | ⟨o, d, hd, e, hf, _⟩
      · exact .inl rfl
      · rcases dome_isect e with ⟨hm, rfl⟩ | ⟨_, _, rfl⟩
        · right; intro h; rw [glow_normal] at h; have := congrArg V3.z h; simp at this
        · cases hf
    · rcases dome_isect e with ⟨hm, rfl⟩ | ⟨_, _, rfl⟩
      · cases hp
      · rfl
    · rw [dome_sees]
      have : V3.dot (-wo) (-wo) = 1 := by simpa [V3.dot] using hwo
      simp [exDomeQ, makeInfinite, this]
    · simp_rw [dome_sees]
      exact (measurable_meets_floor.preimage (measurable_const.prodMk measurable_id)).compl.inter (measurableSet_eq_fun (measurable_dot3 measurable_id measurable_id) measurable_const)

theorem exDome_bulbs (i : Fin 3) : Bulbs exDome (finite exDomeQ) domeFaces glowAt i (fun _ => 2) (fun _ => 1) (fun _ => dome) (fun _ => .extended) (fun _ => heaven (finite exDomeQ) fun _ => ENNReal.ofReal (chan i (V3.all 1))) where
  table := exDome_scene.table
  only j hj L hL := by rw [dome_faces hj, exDome_dark] at hL; cases hL
  each _ _ := .inr (.inr ⟨rfl, dome_outside, exDome_sky.envconst exDome_faceted i 1⟩)

theorem exDome_above (i : Fin 3) (x : Spot) (d : V3 ℝ) (hd : V3.dot d d = 1) : fromSky exDome exDomeQ i x.2 d = skies exDome (fun _ => heaven (finite exDomeQ) fun _ => ENNReal.ofReal (chan i (V3.all 1))) x d := by
  unfold skies
  rw [exDome_one, Finset.sum_range_one]
  refine fromSky_heaven (E := fun _ => V3.all 1) (fun o d hd => ?_) (fun o d s _ e hs => ?_) x hd
  · by_cases hc : MeetsFloor o d <;> simp [exDomeQ, hc, hd]
  · rcases dome_isect e with ⟨hm, rfl⟩ | ⟨_, _, rfl⟩
    · rw [dome_glow_finite] at hs; cases hs
    · rfl

theorem exDome_lit (i : Fin 3) (sp : SI) (wi : V3 ℝ) (hv : Vertex exDome exDomeQ 3 exCam sp wi) : LitBy exDome exDomeQ i (fun _ => 2) (fun _ => 1) (fun _ => dome) (fun _ => .extended) sp :=
  have h := exDome_scene.lit i hv
  ⟨fun j hj => ⟨h.light j hj, h.seen j hj⟩, h.all, h.measurable⟩

example (H : ℝ × ℝ → ℝ≥0∞) (hH : Measurable H) (i : Fin 3) (dir : ℝ × ℝ → V3 ℝ) (hdir : ∀ q, primaryRay exCam q.1 q.2 = some (dir q)) (N : ℕ) (hN : 2 ≤ N) (rs : ℕ → Rnd) :
    averageLight (fun u => ∫⁻ uc, average (N - 2) 2 rs (fun rs' => measured i H (ltSample exDome exDomeQ N u uc rs')) ∂uniform1) +
        ∫⁻ q, H q * (optics exDome exDomeQ i exComps).incoming 1 (camVertex exDome 3 exCam) (dir q) ∂uniform2 =
      ∫⁻ q, H q * radianceLit exDome exDomeQ i exComps (fun _ => 2) (fun _ => .extended) (N - 1) (camVertex exDome 3 exCam) (dir q) ∂uniform2 :=
  C86_lamps_partial exDome_matte (exDome_bulbs i) (exDome_above i) exComps (fun _ _ _ _ => rfl) dir hdir H hH N hN rs

example (H : ℝ × ℝ → ℝ≥0∞) (hH : Measurable H) (i : Fin 3) (mode : Mode) (hmode : mode ≠ .naive) (N : ℕ) (hN : 2 ≤ N) (u : RaySampleU) (uc : ℝ) (rs : ℕ → Rnd) :
    averageLight (fun u => ∫⁻ uc, average (N - 2) 2 rs (fun rs' => measured i H (ltSample exDome exDomeQ N u uc rs')) ∂uniform1) + average 1 1 rs (fun rs' => measured i H (ptSample exDome exDomeQ ⟨mode, true, 2⟩ u uc rs')) =
      average (N - 1) 1 rs (fun rs' => measured i H (ptSample exDome exDomeQ ⟨mode, true, N⟩ u uc rs')) :=
  C86_lamps_same_image_partial exDome_matte (exDome_bulbs i) (exDome_above i) exDome_regular.infinite exComps (fun _ _ _ _ => rfl) rfl
    (fun o d hd => by have hn : ¬ MeetsFloor o d := fun hm => hd hm.1; simp only [exDomeQ, if_neg hn, if_neg hd]) (exDome_lit i) H hH N hN mode hmode u uc rs

end LM.Transport
