import Verif.Props.C86_LightTracing
import Verif.Props.C82_Lamp
/-
  C86: a concrete scene: a triangle at z = -1 which emits radiance 1 upwards, below a triangle at z = 1, both diffuse with albedo 1/2, and a camera between them that looks down.
-/
namespace LM.Transport
open MeasureTheory LM LM.Surface LM.Material LM.Light LM.MathF LM.Path LM.Render LM.Solid Set
open scoped ENNReal

noncomputable def glowTri : Tri := ⟨⟨0, 0, -1⟩, ⟨1, 0, -1⟩, ⟨0, 1, -1⟩⟩

noncomputable def exGlowing : World := { exLamp with
  light := fun _ => area (fun _ => false) 0 (V3.all 1) [glowTri]
  material := fun _ => diffuse (fun _ => V3.all (1 / 2)) }

/-- A point of primitive j. -/
noncomputable def glowAt (j : Int) (p : V3 ℝ) : SI :=
  ⟨.surface, j, if j = 1 then ⟨false, false, p, ⟨0, 0, 1⟩, ⟨0, 0, 1⟩, 0, ⟨1, 0, 0⟩, ⟨0, 1, 0⟩⟩ else ⟨false, false, p, ⟨0, 0, -1⟩, ⟨0, 0, -1⟩, 0, ⟨0, 1, 0⟩, ⟨1, 0, 0⟩⟩⟩

/-- A ray downwards, from above the lower triangle, which meets it. -/
def MeetsGlow (o d : V3 ℝ) : Prop := V3.dot d d = 1 ∧ -1 < o.z ∧ d.z < 0 ∧ Inside glowTri (atHeight (-1) o d)

/-- A ray upwards, from below the upper triangle, which meets it. -/
def MeetsTop (o d : V3 ℝ) : Prop := V3.dot d d = 1 ∧ o.z < 1 ∧ 0 < d.z ∧ Inside lampTri (atHeight 1 o d)

open Classical in
/-- Between the planes of the triangles, a ray meets at most one of them. -/
noncomputable def glowIsect (o d : V3 ℝ) : Option SI :=
  if MeetsGlow o d then some (glowAt 1 (atHeight (-1) o d)) else if MeetsTop o d then some (glowAt 2 (atHeight 1 o d)) else none

open Classical in
noncomputable def exGlowQ : Query where
  isect := glowIsect
  visible s1 s2 := decide ((glowIsect s2.geom.p (dirOf (s1.geom.p - s2.geom.p))).map (fun h => h.geom.p) = some s1.geom.p)

noncomputable def exFaces : List (Int × Tri) := [(1, glowTri), (2, lampTri)]

theorem glow_p (j : Int) (p : V3 ℝ) : (glowAt j p).geom.p = p := by unfold glowAt; dsimp only; split <;> rfl

theorem glow_isect {o d : V3 ℝ} {h : SI} (e : exGlowQ.isect o d = some h) : (MeetsGlow o d ∧ h = glowAt 1 (atHeight (-1) o d)) ∨ (MeetsTop o d ∧ h = glowAt 2 (atHeight 1 o d)) := by
  have e' : glowIsect o d = some h := e
  unfold glowIsect at e'
  split at e'
  · rename_i hc; exact .inl ⟨hc, (Option.some.inj e').symm⟩
  · split at e'
    · rename_i hc; exact .inr ⟨hc, (Option.some.inj e').symm⟩
    · cases e'

theorem glow_hit1 (o d p : V3 ℝ) : hitOf exGlowQ o d = some (1, p) ↔ MeetsGlow o d ∧ p = atHeight (-1) o d := by
  constructor
  · intro h
    unfold hitOf at h
    obtain ⟨hit, e, h⟩ := Option.map_eq_some_iff.mp h
    rcases glow_isect e with ⟨hm, rfl⟩ | ⟨_, rfl⟩
    · rw [glow_p] at h; exact ⟨hm, (congrArg Prod.snd h).symm⟩
    · have := congrArg Prod.fst h
      simp [glowAt] at this
  · rintro ⟨hm, rfl⟩
    have : exGlowQ.isect o d = some (glowAt 1 (atHeight (-1) o d)) := by show glowIsect o d = _; unfold glowIsect; rw [if_pos hm]
    unfold hitOf
    rw [this, Option.map_some, glow_p]; rfl

theorem glow_hit2 (o d p : V3 ℝ) : hitOf exGlowQ o d = some (2, p) ↔ MeetsTop o d ∧ p = atHeight 1 o d := by
  constructor
  · intro h
    unfold hitOf at h
    obtain ⟨hit, e, h⟩ := Option.map_eq_some_iff.mp h
    rcases glow_isect e with ⟨_, rfl⟩ | ⟨hm, rfl⟩
    · have := congrArg Prod.fst h
      simp [glowAt] at this
    · rw [glow_p] at h; exact ⟨hm, (congrArg Prod.snd h).symm⟩
  · rintro ⟨hm, rfl⟩
    have hn : ¬ MeetsGlow o d := fun hc => lt_asymm hc.2.2.1 hm.2.2.1
    have : exGlowQ.isect o d = some (glowAt 2 (atHeight 1 o d)) := by show glowIsect o d = _; unfold glowIsect; rw [if_neg hn, if_pos hm]
    unfold hitOf
    rw [this, Option.map_some, glow_p]; rfl

theorem glow_hit {o d : V3 ℝ} {j : Int} {p : V3 ℝ} (h : hitOf exGlowQ o d = some (j, p)) : j = 1 ∨ j = 2 := by
  unfold hitOf at h
  obtain ⟨hit, e, h⟩ := Option.map_eq_some_iff.mp h
  have := congrArg Prod.fst h
  rcases glow_isect e with ⟨_, rfl⟩ | ⟨_, rfl⟩
  · exact .inl this.symm
  · exact .inr this.symm

theorem glowTri_inside (p : V3 ℝ) : Inside glowTri p ↔ 0 < p.x ∧ 0 < p.y ∧ p.x + p.y < 1 ∧ p.z = -1 := by
  constructor
  · rintro ⟨q, ⟨h1, h2, h3⟩, rfl⟩
    simp only [triAt, glowTri, V3.add_x, V3.add_y, V3.add_z, V3.smul_x, V3.smul_y, V3.smul_z, V3.sub_x, V3.sub_y, V3.sub_z]
    refine ⟨?_, ?_, ?_, ?_⟩ <;> linarith
  · rintro ⟨h1, h2, h3, h4⟩
    refine ⟨(p.x, p.y), ⟨h1, h2, h3⟩, ?_⟩
    ext <;> simp [triAt, glowTri, h4]

theorem glowTri_map : triMap 1 glowTri = glowTri := by
  unfold triMap
  have h : ∀ p : V3 ℝ, (1 : Aff ℝ).app p = p := fun p => by ext <;> simp [Aff.app, Aff.lin, Aff.one_def]
  rw [h, h, h]

theorem glowTri_cross : triCross glowTri = ⟨0, 0, 1⟩ := by ext <;> simp [triCross, glowTri, V3.cross]
theorem lampTri_cross : triCross lampTri = ⟨0, 0, -1⟩ := by ext <;> simp [triCross, lampTri, V3.cross]

theorem glowTri_normal : frontNormal 1 glowTri = ⟨0, 0, 1⟩ := by
  unfold frontNormal
  have : (1 : Aff ℝ).normalM (triCross glowTri) = ⟨0, 0, 1⟩ := by
    rw [glowTri_cross]
    ext <;> simp [Aff.normalM, Aff.det, Aff.one_def, V3.cross, V3.dot]
  rw [this]
  ext <;> simp [dirOf, V3.dot]

theorem glow_on (j : Int) (p : V3 ℝ) : OnSurface (glowAt j p).geom := by
  unfold glowAt
  dsimp only
  split <;> simp [OnSurface, MathF.Orthonormal, V3.dot, V3.cross]

theorem glow_normal (j : Int) (p : V3 ℝ) : (glowAt j p).geom.n = if j = 1 then ⟨0, 0, 1⟩ else ⟨0, 0, -1⟩ := by unfold glowAt; dsimp only; split <;> rfl
theorem glow_gn (j : Int) (p : V3 ℝ) : (glowAt j p).geom.gn = if j = 1 then ⟨0, 0, 1⟩ else ⟨0, 0, -1⟩ := by unfold glowAt; dsimp only; split <;> rfl

theorem glow_dot (j : Int) (p d : V3 ℝ) : V3.dot d (glowAt j p).geom.n ≠ 0 ↔ d.z ≠ 0 := by
  rw [glow_normal]
  split <;> simp [V3.dot]

/-- From points above the lower triangle, its points are seen. -/
theorem glow_seen1 (o p : V3 ℝ) (ho : -1 < o.z) (hi : Inside glowTri p) : hitOf exGlowQ o (dirOf (p - o)) = some (1, p) := by
  have hpz := ((glowTri_inside p).mp hi).2.2.2
  have hpos : 0 < V3.dot (p - o) (p - o) := by
    rcases (dot_self_nonneg (p - o)).eq_or_lt with h | h
    · have := congrArg V3.z (dot_self_zero h.symm)
      simp [hpz] at this; linarith
    · exact h
  have hr := Real.sqrt_pos.mpr hpos
  obtain ⟨hu, hv⟩ := dirOf_spec hpos
  have hz : p.z - o.z = Real.sqrt (V3.dot (p - o) (p - o)) * (dirOf (p - o)).z := by simpa using congrArg V3.z hv
  have hdz : (dirOf (p - o)).z < 0 := by
    rw [hpz] at hz
    by_contra hc
    have := mul_nonneg hr.le (not_lt.mp hc)
    linarith
  have hat : atHeight (-1) o (dirOf (p - o)) = p := by
    unfold atHeight
    rw [← hpz, hz, mul_div_cancel_right₀ _ hdz.ne, ← hv]
    abel
  exact (glow_hit1 _ _ _).mpr ⟨⟨hu, ho, hdz, by rw [hat]; exact hi⟩, hat.symm⟩

theorem glow_seen2 (o p : V3 ℝ) (ho : o.z < 1) (hi : Inside lampTri p) : hitOf exGlowQ o (dirOf (p - o)) = some (2, p) := by
  have hpz := ((lampTri_inside p).mp hi).2.2.2
  have hpos : 0 < V3.dot (p - o) (p - o) := by
    rcases (dot_self_nonneg (p - o)).eq_or_lt with h | h
    · have := congrArg V3.z (dot_self_zero h.symm)
      simp [hpz] at this; linarith
    · exact h
  have hr := Real.sqrt_pos.mpr hpos
  obtain ⟨hu, hv⟩ := dirOf_spec hpos
  have hz : p.z - o.z = Real.sqrt (V3.dot (p - o) (p - o)) * (dirOf (p - o)).z := by simpa using congrArg V3.z hv
  have hdz : 0 < (dirOf (p - o)).z := by
    rw [hpz] at hz
    by_contra hc
    have := mul_nonneg hr.le (neg_nonneg.mpr (not_lt.mp hc))
    linarith
  have hat : atHeight 1 o (dirOf (p - o)) = p := by
    unfold atHeight
    rw [← hpz, hz, mul_div_cancel_right₀ _ hdz.ne', ← hv]
    abel
  exact (glow_hit2 _ _ _).mpr ⟨⟨hu, ho, hdz, by rw [hat]; exact hi⟩, hat.symm⟩

theorem measurable_atHeight' (z : ℝ) : Measurable fun q : V3 ℝ × V3 ℝ => atHeight z q.1 q.2 := by
  unfold atHeight
  exact measurable_add3 measurable_fst (measurable_smul3 ((measurable_const.sub (measurable_z.comp measurable_fst)).div (measurable_z.comp measurable_snd)) measurable_snd)

theorem measurable_inside' : MeasurableSet {p | Inside glowTri p} := by
  simp_rw [glowTri_inside]
  exact (measurableSet_lt measurable_const measurable_x).inter ((measurableSet_lt measurable_const measurable_y).inter ((measurableSet_lt (measurable_x.add measurable_y) measurable_const).inter (measurableSet_eq_fun measurable_z measurable_const)))

theorem measurable_meets_glow : MeasurableSet {q : V3 ℝ × V3 ℝ | MeetsGlow q.1 q.2} :=
  (measurableSet_eq_fun (measurable_dot3 measurable_snd measurable_snd) measurable_const).inter ((measurableSet_lt measurable_const (measurable_z.comp measurable_fst)).inter
    ((measurableSet_lt (measurable_z.comp measurable_snd) measurable_const).inter (measurable_inside'.preimage (measurable_atHeight' (-1)))))

theorem measurable_meets_top : MeasurableSet {q : V3 ℝ × V3 ℝ | MeetsTop q.1 q.2} :=
  (measurableSet_eq_fun (measurable_dot3 measurable_snd measurable_snd) measurable_const).inter ((measurableSet_lt (measurable_z.comp measurable_fst) measurable_const).inter
    ((measurableSet_lt measurable_const (measurable_z.comp measurable_snd)).inter (measurable_inside.preimage (measurable_atHeight' 1))))

theorem exGlow_faceted : Faceted exGlowQ exFaces glowAt where
  area g hg := by
    have : g = (1, glowTri) ∨ g = (2, lampTri) := by simpa [exFaces] using hg
    rcases this with rfl | rfl
    · simp [twiceArea, glowTri_cross, V3.dot]
    · simp [twiceArea, lampTri_cross, V3.dot]
  at_point j p := by unfold glowAt; dsimp only; split <;> simp
  normal g hg p _ := by
    have : g = (1, glowTri) ∨ g = (2, lampTri) := by simpa [exFaces] using hg
    left
    rcases this with rfl | rfl
    · rw [glow_gn, glowTri_cross]; ext <;> simp [dirOf, V3.dot]
    · rw [glow_gn, lampTri_cross]; ext <;> simp [dirOf, V3.dot]
  same o d h _ e := by
    rcases glow_isect e with ⟨_, rfl⟩ | ⟨_, rfl⟩
    · rw [glow_p]; rfl
    · rw [glow_p]; rfl
  ahead o d h _ e := by
    rcases glow_isect e with ⟨hm, rfl⟩ | ⟨hm, rfl⟩
    · exact ⟨(-1 - o.z) / d.z, div_pos_of_neg_of_neg (by linarith [hm.2.1]) hm.2.2.1, by rw [glow_p]; rfl⟩
    · exact ⟨(1 - o.z) / d.z, div_pos (by linarith [hm.2.1]) hm.2.2.1, by rw [glow_p]; rfl⟩
  once o := by
    refine Filter.Eventually.of_forall fun d h e => ?_
    rcases glow_isect e with ⟨hm, rfl⟩ | ⟨hm, rfl⟩
    · refine ⟨0, glowTri, rfl, by rw [glow_p]; exact hm.2.2.2, fun k' t' hk _ => ?_⟩
      match k', hk with
      | 0, _ => rfl
      | 1, hk => simp [exFaces, glowAt] at hk
      | k + 2, hk => simp [exFaces] at hk
    · refine ⟨1, lampTri, rfl, by rw [glow_p]; exact hm.2.2.2, fun k' t' hk _ => ?_⟩
      match k', hk with
      | 0, hk => simp [exFaces, glowAt] at hk
      | 1, _ => rfl
      | k + 2, hk => simp [exFaces] at hk
  both s hs t ht p q hp hq h1 h2 := by
    have hs : s = (1, glowTri) ∨ s = (2, lampTri) := by simpa [exFaces] using hs
    have ht : t = (1, glowTri) ∨ t = (2, lampTri) := by simpa [exFaces] using ht
    rcases hs with rfl | rfl <;> rcases ht with rfl | rfl
    · exact absurd (by rw [glowTri_cross]; simp [V3.dot, ((glowTri_inside p).mp hp).2.2.2, ((glowTri_inside q).mp hq).2.2.2]) h1
    · have hpz := ((glowTri_inside p).mp hp).2.2.2
      have hqz := ((lampTri_inside q).mp hq).2.2.2
      exact iff_of_true (glow_seen2 p q (by rw [hpz]; norm_num) hq) (glow_seen1 q p (by rw [hqz]; norm_num) hp)
    · have hpz := ((lampTri_inside p).mp hp).2.2.2
      have hqz := ((glowTri_inside q).mp hq).2.2.2
      exact iff_of_true (glow_seen1 p q (by rw [hpz]; norm_num) hq) (glow_seen2 q p (by rw [hqz]; norm_num) hp)
    · exact absurd (by rw [lampTri_cross]; simp [V3.dot, ((lampTri_inside p).mp hp).2.2.2, ((lampTri_inside q).mp hq).2.2.2]) h1
  meets j := by
    by_cases h1 : j = 1
    · subst h1
      refine (congrArg MeasurableSet (Set.ext fun q => ?_)).mp measurable_meets_glow
      simp only [mem_ofPred_eq, glow_hit1]
      exact ⟨fun h => ⟨_, h, rfl⟩, fun ⟨_, h, _⟩ => h⟩
    · by_cases h2 : j = 2
      · subst h2
        refine (congrArg MeasurableSet (Set.ext fun q => ?_)).mp measurable_meets_top
        simp only [mem_ofPred_eq, glow_hit2]
        exact ⟨fun h => ⟨_, h, rfl⟩, fun ⟨_, h, _⟩ => h⟩
      · refine (congrArg MeasurableSet (Set.ext fun q => ?_)).mp MeasurableSet.empty
        simp only [mem_empty_iff_false, mem_ofPred_eq, false_iff]
        rintro ⟨p, hp⟩
        rcases glow_hit hp with h | h
        · exact h1 h
        · exact h2 h
  point j := by
    by_cases h1 : j = 1
    · subst h1
      exact ⟨fun q => atHeight (-1) q.1 q.2, measurable_atHeight' _, fun q p h => ((glow_hit1 _ _ _).mp h).2⟩
    · refine ⟨fun q => atHeight 1 q.1 q.2, measurable_atHeight' _, fun q p h => ?_⟩
      rcases glow_hit h with h' | h'
      · exact absurd h' h1
      · subst h'; exact ((glow_hit2 _ _ _).mp h).2
  gn j := by simp_rw [glow_gn]; exact measurable_const

/-- A point of a triangle is visible if the ray meets it. -/
theorem glow_visible {s1 s2 : SI} {g : Int × Tri} (hg : g ∈ exFaces) (hi : Inside g.2 s1.geom.p) : exGlowQ.visible s1 s2 = true ↔ Sees exGlowQ s2.geom.p g.1 s1.geom.p := by
  show decide ((exGlowQ.isect s2.geom.p (dirOf (s1.geom.p - s2.geom.p))).map (fun h => h.geom.p) = some s1.geom.p) = true ↔ (exGlowQ.isect s2.geom.p (dirOf (s1.geom.p - s2.geom.p))).map (fun h => (h.primitive, h.geom.p)) = some (g.1, s1.geom.p)
  rw [decide_eq_true_iff]
  have hg : g = (1, glowTri) ∨ g = (2, lampTri) := by simpa [exFaces] using hg
  cases e : exGlowQ.isect s2.geom.p (dirOf (s1.geom.p - s2.geom.p)) with
  | none => simp
  | some h =>
    simp only [Option.map_some, Option.some.injEq, Prod.mk.injEq]
    refine ⟨fun hp => ⟨?_, hp⟩, fun hp => hp.2⟩
    rcases glow_isect e with ⟨hm, rfl⟩ | ⟨hm, rfl⟩ <;> rcases hg with rfl | rfl
    · rfl
    · have h1 := ((glowTri_inside _).mp hm.2.2.2).2.2.2
      have h2 := ((lampTri_inside _).mp hi).2.2.2
      rw [glow_p] at hp
      rw [hp, h2] at h1; norm_num at h1
    · have h1 := ((lampTri_inside _).mp hm.2.2.2).2.2.2
      have h2 := ((glowTri_inside _).mp hi).2.2.2
      rw [glow_p] at hp
      rw [hp, h2] at h1; norm_num at h1
    · rfl

open Classical in
/-- The BSDF. -/
noncomputable def glowF (j : Int) (_ : ℕ) (p wi wo : V3 ℝ) : V3 ℝ := if opposite (glowAt j p).geom wi wo then 0 else (1 / Real.pi) • V3.all (1 / 2)

theorem glow_faces {j : Int} (h : j ∈ exFaces.map (·.1)) : j = 1 ∨ j = 2 := by simpa [exFaces] using h

theorem half_nonneg : NonNeg (V3.all (1 / 2)) := ⟨by simp [V3.all], by simp [V3.all], by simp [V3.all]⟩

theorem glow_opposite (j : Int) (p wi wo : V3 ℝ) : opposite (glowAt j p).geom wi wo = true ↔ wi.z * wo.z ≤ 0 := by
  rw [opposite_false_iff, glow_normal]
  split <;> simp [V3.dot]

theorem exGlow_matte : Matte exGlowing exGlowQ 3 exCam exFaces glowAt (fun _ => diffuse fun _ => V3.all (1 / 2)) (fun _ => {0}) glowF where
  camera := rfl
  cameraAt := rfl
  proper := exCam_proper
  faceted := exGlow_faceted
  face o d h _ e := by
    rcases glow_isect e with ⟨hm, rfl⟩ | ⟨hm, rfl⟩
    · exact ⟨by simp [exFaces, glowAt], (glow_dot _ _ _).mpr hm.2.2.1.ne⟩
    · exact ⟨by simp [exFaces, glowAt], (glow_dot _ _ _).mpr hm.2.2.1.ne'⟩
  surface j hj p := by
    refine ⟨rfl, glow_on j p, ?_⟩
    rcases glow_faces hj with rfl | rfl <;> rfl
  normal j := by simp_rw [glow_normal]; exact measurable_const
  material j hj p wi hwi hg := by
    refine ⟨diffuse_ok _ _ _ (glow_on j p) hg half_nonneg, fun c _ => ⟨diffuse_smooth _ _ _ _ (glow_on j p) hg half_nonneg, C80_diffuse _ _ _ _ (glow_on j p) hg⟩⟩
  eval j hj c hc p wi wo _ _ _ := by
    refine ⟨?_, fun dir e => rfl⟩
    unfold glowF
    split
    · exact ⟨le_rfl, le_rfl, le_rfl⟩
    · exact nonneg_smul (by positivity) half_nonneg
  measurable j c := by
    unfold glowF
    simp_rw [glow_opposite]
    refine Measurable.ite (measurableSet_le ?_ measurable_const) measurable_const measurable_const
    exact (measurable_z.comp (measurable_fst.comp measurable_snd)).mul (measurable_z.comp (measurable_snd.comp measurable_snd))
  reciprocal j hj c hc p wi wo _ _ _ _ := by
    unfold glowF
    simp_rw [glow_opposite, mul_comm]
  sight g hg := by
    have hg : g = (1, glowTri) ∨ g = (2, lampTri) := by simpa [exFaces] using hg
    refine (inside_ae g.2).mono fun p hp => ⟨?_, ?_⟩
    · have : (toEye exCam (p - exCam.position)).z = p.z := by simp [toEye, exCam, V3.dot]
      rw [this]
      rcases hg with rfl | rfl
      · rw [((glowTri_inside p).mp hp).2.2.2]; norm_num
      · rw [((lampTri_inside p).mp hp).2.2.2]; norm_num
    · have hv := glow_visible (s1 := glowAt g.1 p) (s2 := camVertex exGlowing 3 exCam) (g := g) (by simpa [exFaces] using hg) (by rw [glow_p]; exact hp)
      rw [glow_p] at hv
      exact hv

theorem glow_area : 0 < ([glowTri].map triArea).sum := by
  have : triArea glowTri = 1 / 2 := by
    simp [triArea, glowTri, V3.cross, V3.dot, safeSqrt]
  simp [this]

theorem exGlow_table : LightTable exGlowing (fun _ => 1) (fun _ => 1) (fun _ => area (fun _ => false) 0 (V3.all 1) [glowTri]) where
  pos := one_pos
  entry j hj := by
    have : j = 0 := by have : exGlowing.st.lights.length = 1 := rfl; omega
    subst this; rfl
  index j hj := by
    have : j = 0 := by have : exGlowing.st.lights.length = 1 := rfl; omega
    subst this; rfl
  light _ _ := rfl

theorem exGlow_lamps : Lamps exGlowing exFaces glowAt (fun _ => 1) (fun _ => 1) (fun _ => false) 0 (fun _ => V3.all 1) (fun _ => [glowTri]) where
  table := exGlow_table
  size l hl := by
    have hd : (1 : Aff ℝ).det = 1 := by simp [Aff.det, Aff.one_def, V3.cross, V3.dot]
    refine ⟨glow_area, by rw [hd]; exact one_ne_zero, fun t ht => ?_⟩
    have : t = glowTri := by simpa using ht
    rw [this, glowTri_map, hd]; simp
  nonneg l hl := ⟨zero_le_one, zero_le_one, zero_le_one⟩
  only j hj L hL := by
    rcases glow_faces hj with rfl | rfl
    · exact ⟨0, one_pos, rfl⟩
    · have : exGlowing.lightAt 2 = none := rfl
      rw [this] at hL; cases hL
  faces l hl := by simp [exFaces, glowTri_map]
  flat l hl t ht p hp := by
    have : t = glowTri := by simpa using ht
    rw [this, glowTri_normal, glow_normal]; rfl

/-! ### The theorems in this scene -/

theorem glow_unit (o d : V3 ℝ) (hd : V3.dot d d ≠ 1) : exGlowQ.isect o d = none := by
  cases e : exGlowQ.isect o d with
  | none => rfl
  | some h => rcases glow_isect e with ⟨hm, _⟩ | ⟨hm, _⟩ <;> exact absurd hm.1 hd

example (H : ℝ × ℝ → ℝ≥0∞) (hH : Measurable H) (i : Fin 3) (N : ℕ) (hN : 2 ≤ N) (px : Bool) (u : RaySampleU) (uc : ℝ) (rs : ℕ → Rnd) :
    averageLight (fun u => ∫⁻ uc, average (N - 2) 2 rs (fun rs' => measured i H (ltSample exGlowing exGlowQ N u uc rs')) ∂uniform1) + average 1 1 rs (fun rs' => measured i H (ptSample exGlowing exGlowQ ⟨.naive, px, 2⟩ u uc rs')) =
      average (N - 1) 1 rs (fun rs' => measured i H (ptSample exGlowing exGlowQ ⟨.naive, px, N⟩ u uc rs')) :=
  C86_same_image_partial exGlow_matte exGlow_lamps i exComps (fun _ _ _ _ => rfl) rfl glow_unit H hH N hN px u uc rs

theorem half_chan (i : Fin 3) : chan i ((1 / Real.pi) • V3.all (1 / 2)) ≤ 1 := by
  have : (1 / Real.pi) * (1 / 2) ≤ 1 := by
    rw [div_mul_div_comm, one_mul, div_le_one (by positivity)]
    linarith [Real.two_le_pi]
  fin_cases i <;> simpa [chan, V3.all] using this

theorem glow_kernel (i : Fin 3) (x : Spot) (wi wo : V3 ℝ) (hwo : V3.dot wo wo = 1) : kernel glowAt (fun _ => {0}) glowF i .EL x wi wo ≤ 1 := by
  unfold kernel kern
  rw [Finset.sum_singleton]
  have h1 : ENNReal.ofReal |V3.dot wo (glowAt x.1 x.2).geom.n| ≤ 1 := by
    rw [ENNReal.ofReal_le_one, glow_normal]
    have : |wo.z| ≤ 1 := by
      simp only [V3.dot] at hwo
      rw [abs_le]
      constructor <;> nlinarith [sq_nonneg wo.x, sq_nonneg wo.y]
    split <;> simpa [V3.dot] using this
  have h2 : ENNReal.ofReal (shadingNormalCorrection (glowAt x.1 x.2).geom wi wo .EL) ≤ 1 := by
    rw [ENNReal.ofReal_le_one, snc_eq]
    split
    · norm_num
    · simp
  have h3 : ENNReal.ofReal (chan i (glowF x.1 0 x.2 wi wo)) ≤ 1 := by
    rw [ENNReal.ofReal_le_one]
    unfold glowF
    split
    · fin_cases i <;> simp [chan]
    · exact half_chan i
  exact mul_le_one' h1 (mul_le_one' h2 h3)

theorem front_one (i : Fin 3) (n d : V3 ℝ) : front i (V3.all 1) n d ≤ 1 := by
  unfold front
  rw [ENNReal.ofReal_le_one]
  split <;> fin_cases i <;> simp [chan, V3.all]

theorem glow_emission1 (i : Fin 3) (p w : V3 ℝ) : emission exGlowing exFaces glowAt i (1, p) w = front i (V3.all 1) ⟨0, 0, 1⟩ w := by
  have := emission_at (l := 0) exGlow_lamps (fun j p => (exGlow_faceted.at_point j p).1) i one_pos (by simp [exFaces]) p w
  rw [glow_normal, if_pos rfl] at this
  exact this

theorem glow_emission (i : Fin 3) (x : Spot) (w : V3 ℝ) : emission exGlowing exFaces glowAt i x w ≤ 1 := by
  by_cases hx : x.1 ∈ exFaces.map (·.1)
  · obtain ⟨j, p⟩ := x
    rcases glow_faces hx with h | h
    · change j = 1 at h
      subst h
      rw [glow_emission1]
      exact front_one _ _ _
    · change j = 2 at h
      subst h
      have : emission exGlowing exFaces glowAt i (2, p) w = 0 := by
        unfold emission
        rw [if_pos hx]
        rfl
      rw [this]
      exact zero_le
  · unfold emission
    rw [if_neg hx]
    exact zero_le

/-- The light is bounded. -/
theorem glow_bounded (i : Fin 3) (k : ℕ) : ∃ c : NNReal, ∀ (x : Spot) (d : V3 ℝ), V3.dot d d = 1 → Adjoint.light (fun x d => hitOf exGlowQ x.2 d) solidAngle (kernel glowAt (fun _ => {0}) glowF i .EL) (emission exGlowing exFaces glowAt i) k x d ≤ c := by
  induction k with
  | zero => exact ⟨0, fun x d _ => le_rfl⟩
  | succ k ih =>
    obtain ⟨c, hc⟩ := ih
    refine ⟨1 + c * (solidAngle univ).toNNReal, fun x d _ => ?_⟩
    show Adjoint.back _ _ x d ≤ _
    unfold Adjoint.back
    split
    · exact zero_le
    · rename_i y _
      rw [ENNReal.coe_add, ENNReal.coe_mul, ENNReal.coe_toNNReal (measure_ne_top _ _)]
      refine add_le_add ?_ ?_
      · exact glow_emission i _ _
      · unfold Adjoint.scat
        rw [← lintegral_const]
        refine lintegral_mono_ae (solidAngle_unit.mono fun d' hd' => ?_)
        refine (mul_le_mul' (glow_kernel i y _ d' hd') (hc y d' hd')).trans ?_
        rw [one_mul]

/-- The camera sees the lamp in a part of the film. -/
theorem glow_direct (i : Fin 3) (dir : ℝ × ℝ → V3 ℝ) (hdir : ∀ q, primaryRay exCam q.1 q.2 = some (dir q)) (q : ℝ × ℝ) (hx : q.1 ∈ Ioo (1 / 2 : ℝ) (5 / 8)) (hy : q.2 ∈ Ioo (1 / 2 : ℝ) (3 / 4)) :
    1 ≤ (optics exGlowing exGlowQ i exComps).incoming 1 (camVertex exGlowing 3 exCam) (dir q) := by
  obtain ⟨d, hd, hu, k, hk, ht⟩ := C47_primary exCam exCam_proper q.1 q.2
  have hdq : d = dir q := Option.some.inj (hd.symm.trans (hdir q))
  rw [← hdq]
  have hz : k * d.z = -1 := by simpa [exCam, Camera.screen] using congrArg V3.z ht
  have hkd : -1 / d.z = k := by
    have : d.z ≠ 0 := fun h => by rw [h] at hz; norm_num at hz
    rw [div_eq_iff this]; exact hz.symm
  have hat : atHeight (-1) 0 d = ⟨2 * (2 * q.1 - 1), 2 * q.2 - 1, -1⟩ := by
    unfold atHeight
    rw [show (0 : V3 ℝ).z = 0 from rfl, sub_zero, hkd, ht, zero_add]
    ext <;> simp [exCam, Camera.screen]
  have hzneg : d.z < 0 := by
    by_contra hc
    have := mul_nonneg hk.le (not_lt.mp hc)
    linarith
  have hm : MeetsGlow 0 d := by
    refine ⟨hu, by show (-1 : ℝ) < 0; norm_num, hzneg, ?_⟩
    rw [hat, glowTri_inside]
    obtain ⟨h1, h2⟩ := hx
    obtain ⟨h3, h4⟩ := hy
    refine ⟨?_, ?_, ?_, rfl⟩ <;> dsimp only <;> linarith
  have hh := (glow_hit1 0 d _).mpr ⟨hm, rfl⟩
  have hE := exGlow_lamps.measurable exGlow_matte i
  rw [exGlow_matte.incoming i (fun _ _ _ _ => rfl) hE (fun j hj p w => (if_pos hj).symm) 1 _ 0 d hu]
  show 1 ≤ Adjoint.back _ _ ((0 : Int), (0 : V3 ℝ)) d
  unfold Adjoint.back
  dsimp only
  rw [hh]
  dsimp only
  refine le_trans ?_ le_self_add
  rw [glow_emission1]
  unfold front
  rw [if_neg (by simp [V3.dot]; exact hzneg)]
  fin_cases i <;> simp [chan, V3.all]

/-- C86, negation. The light tracer and the path tracer do not compute the same image: there is a scene with one area light that the camera sees directly, in which for every maximal length of paths the image of the light tracer,
    summed up, is darker than that of the path tracer. The light tracer connects the vertices of the light path to the camera from the second one on, so that paths from the light to the camera are missing (renderer_lt.cpp). -/
theorem C86_negation_direct (i : Fin 3) (px : Bool) (u : RaySampleU) (uc : ℝ) (rs : ℕ → Rnd) (N : ℕ) (hN : 2 ≤ N) :
    averageLight (fun u => ∫⁻ uc, average (N - 2) 2 rs (fun rs' => measured i (fun _ => 1) (ltSample exGlowing exGlowQ N u uc rs')) ∂uniform1) <
      average (N - 1) 1 rs (fun rs' => measured i (fun _ => 1) (ptSample exGlowing exGlowQ ⟨.naive, px, N⟩ u uc rs')) := by
  have hdir : ∀ q : ℝ × ℝ, ∃ d, primaryRay exCam q.1 q.2 = some d ∧ V3.dot d d = 1 := fun q => ⟨_, (C47_primary exCam exCam_proper q.1 q.2).choose_spec.1, (C47_primary exCam exCam_proper q.1 q.2).choose_spec.2.1⟩
  choose dir hdir hunit using hdir
  have hE := exGlow_lamps.measurable exGlow_matte i
  have hS := (exGlow_matte.regular (comps := exComps) (fun _ _ _ _ => rfl) rfl).sound i fun k sp _ _ => exGlow_matte.measurable_incoming i (fun _ _ _ _ => rfl) hE (fun j hj p w => (if_pos hj).symm) glow_unit k sp
  have hpt : average (N - 1) 1 rs (fun rs' => measured i (fun _ => 1) (ptSample exGlowing exGlowQ ⟨.naive, px, N⟩ u uc rs')) = ∫⁻ q, 1 * (optics exGlowing exGlowQ i exComps).incoming (N - 1) (camVertex exGlowing 3 exCam) (dir q) ∂uniform2 :=
    C82_pt exGlowing exGlowQ _ (connection exGlowing exGlowQ) i _ hS ⟨.naive, px, N⟩ (fun hc => absurd rfl hc) 3 exCam rfl rfl exCam_proper (.inl ⟨rfl, rfl⟩) (by simp [optics, exComps]) dir hdir (fun _ => 1) measurable_const u uc rs
  have hlt := C86_lt_partial exGlow_matte exGlow_lamps i exComps (fun _ _ _ _ => rfl) dir hdir (fun _ => 1) measurable_const N hN rs
  rw [hpt, ← hlt]
  have hfin : ∫⁻ q, 1 * (optics exGlowing exGlowQ i exComps).incoming (N - 1) (camVertex exGlowing 3 exCam) (dir q) ∂uniform2 < ⊤ := by
    obtain ⟨c, hc⟩ := glow_bounded i (N - 1)
    refine (lintegral_mono (g := fun _ => (c : ℝ≥0∞)) fun q => ?_).trans_lt ?_
    · dsimp only
      rw [one_mul, exGlow_matte.incoming i (fun _ _ _ _ => rfl) hE (fun j hj p w => (if_pos hj).symm) _ _ 0 _ (hunit q)]
      exact hc _ _ (hunit q)
    · have h1 : uniform2 univ = 1 := by
        unfold uniform2; rw [Measure.restrict_apply_univ, Measure.volume_eq_prod, Measure.prod_prod]; simp
      rw [lintegral_const, h1, mul_one]
      exact ENNReal.coe_lt_top
  rw [← hlt] at hfin
  refine ENNReal.lt_add_right (ENNReal.add_lt_top.mp hfin).1.ne (fun h0 => ?_)
  have hbox : (1 : ℝ≥0∞) * uniform2 (Ioo (1 / 2 : ℝ) (5 / 8) ×ˢ Ioo (1 / 2 : ℝ) (3 / 4)) ≤ 0 := by
    rw [← h0, ← lintegral_indicator_const (measurableSet_Ioo.prod measurableSet_Ioo)]
    refine lintegral_mono fun q => ?_
    by_cases hq : q ∈ Ioo (1 / 2 : ℝ) (5 / 8) ×ˢ Ioo (1 / 2 : ℝ) (3 / 4)
    · rw [indicator_of_mem hq, one_mul]
      exact glow_direct i dir hdir q hq.1 hq.2
    · rw [indicator_of_notMem hq]
      exact zero_le
  have hsub : Ioo (1 / 2 : ℝ) (5 / 8) ×ˢ Ioo (1 / 2 : ℝ) (3 / 4) ⊆ Ico (0 : ℝ) 1 ×ˢ Ico (0 : ℝ) 1 := by
    rintro q ⟨⟨h1, h2⟩, h3, h4⟩
    exact ⟨⟨by linarith, by linarith⟩, by linarith, by linarith⟩
  unfold uniform2 at hbox
  rw [one_mul, Measure.restrict_apply (measurableSet_Ioo.prod measurableSet_Ioo), inter_eq_self_of_subset_left hsub, Measure.volume_eq_prod, Measure.prod_prod, Real.volume_Ioo, Real.volume_Ioo, ← ENNReal.ofReal_mul (by norm_num)] at hbox
  have := ENNReal.ofReal_eq_zero.mp (le_antisymm hbox zero_le)
  norm_num at this

end LM.Transport
