import Verif.Props.C86_Beam
import Verif.Props.C86_Bulb
/-
  C86: a concrete scene with a directional light: the triangles of `C86_Example`, of which the lower one may emit light, and light of irradiance 1 that falls on it aslant. The triangles are one-sided: light from above
  does not meet the upper one.
-/
namespace LM.Transport
open MeasureTheory LM LM.Surface LM.Material LM.Light LM.MathF LM.Path LM.Render LM.Solid Set
open scoped ENNReal

noncomputable def sunDir : V3 ℝ := ⟨3 / 5, 0, -(4 / 5)⟩
noncomputable def slantSun : Light := directional (fun _ => false) 0 (V3.all 1) sunDir 0 2

noncomputable def exSun (b : Bool) : World := { exBulb b with light := fun j => if j = 0 then area (fun _ => false) 0 (V3.all 1) [glowTri] else slantSun }

open Classical in
/-- A light at infinity is visible from the points that a ray from far away meets. -/
noncomputable def exSunQ : Query where
  isect := glowIsect
  visible s1 s2 := if s2.geom.infinite then decide ((glowIsect (s1.geom.p - (4 : ℝ) • s2.geom.wo) s2.geom.wo).map (fun h => h.geom.p) = some s1.geom.p) else exGlowQ.visible s1 s2

theorem exSun_camera (b : Bool) : (exSun b).st.camera = some 3 := by cases b <;> rfl
theorem exSun_cameraAt (b : Bool) : (exSun b).cameraAt 3 = some exCam := by cases b <;> rfl
theorem exSun_material (b : Bool) {j : Int} (hj : j ∈ exFaces.map (·.1)) : (exSun b).materialAt j = some (diffuse fun _ => V3.all (1 / 2)) := by
  rcases glow_faces hj with rfl | rfl <;> cases b <;> rfl
theorem exSun_eye (b : Bool) : camVertex (exSun b) 3 exCam = camVertex exGlowing 3 exCam := by cases b <;> rfl

theorem exSun_faceted : Faceted exSunQ exFaces glowAt :=
  ⟨exGlow_faceted.area, exGlow_faceted.at_point, exGlow_faceted.normal, exGlow_faceted.same, exGlow_faceted.ahead, exGlow_faceted.once, exGlow_faceted.both, exGlow_faceted.meets, exGlow_faceted.point, exGlow_faceted.gn⟩

theorem exSun_matte (b : Bool) : Matte (exSun b) exSunQ 3 exCam exFaces glowAt (fun _ => diffuse fun _ => V3.all (1 / 2)) (fun _ => {0}) glowF where
  camera := exSun_camera b
  cameraAt := exSun_cameraAt b
  proper := exCam_proper
  faceted := exSun_faceted
  face := exGlow_matte.face
  surface j hj p := ⟨rfl, glow_on j p, exSun_material b hj⟩
  normal := exGlow_matte.normal
  material := exGlow_matte.material
  eval := exGlow_matte.eval
  measurable := exGlow_matte.measurable
  reciprocal := exGlow_matte.reciprocal
  sight g hg := (exGlow_matte.sight g hg).mono fun p hp => by rw [exSun_eye]; exact hp

theorem sunDir_unit : V3.dot sunDir sunDir = 1 := by simp only [V3.dot, sunDir]; norm_num
theorem sunDir_z : sunDir.z = -(4 / 5) := rfl

/-- A ray of the light from above meets the lower triangle where the line through its origin does. -/
theorem sun_hit (o p : V3 ℝ) (j : Int) : hitOf exSunQ o sunDir = some (j, p) ↔ j = 1 ∧ -1 < o.z ∧ Inside glowTri p ∧ p = atHeight (-1) o sunDir := by
  have hz : sunDir.z < 0 := by rw [sunDir_z]; norm_num
  constructor
  · intro h
    rcases glow_hit (show hitOf exGlowQ o sunDir = some (j, p) from h) with rfl | rfl
    · obtain ⟨hm, e⟩ := (glow_hit1 _ _ _).mp h
      exact ⟨rfl, hm.2.1, e ▸ hm.2.2.2, e⟩
    · exact absurd ((glow_hit2 _ _ _).mp h).1.2.2.1 (not_lt.mpr hz.le)
  · rintro ⟨rfl, ho, hi, e⟩
    exact (glow_hit1 _ _ _).mpr ⟨⟨sunDir_unit, ho, hz, e ▸ hi⟩, e⟩

theorem sun_back (p : V3 ℝ) (k : ℝ) (hp : p.z = -1) : atHeight (-1) (p - k • sunDir) sunDir = p := by
  unfold atHeight
  have : (-1 - (p - k • sunDir).z) / sunDir.z = k := by
    rw [V3.sub_z, V3.smul_z, hp, sunDir_z]
    field_simp
    ring
  rw [this]; abel

/-- A point of the triangles is met by the ray that starts k before it if it is on the lower one. -/
theorem sun_sees {g : Int × Tri} (hg : g ∈ exFaces) {p : V3 ℝ} (hp : Inside g.2 p) {k : ℝ} (hk : 0 < k) : hitOf exSunQ (p - k • sunDir) sunDir = some (g.1, p) ↔ g.1 = 1 := by
  rw [sun_hit]
  have hg : g = (1, glowTri) ∨ g = (2, lampTri) := by simpa [exFaces] using hg
  rcases hg with rfl | rfl
  · have hz := ((glowTri_inside p).mp hp).2.2.2
    refine iff_of_true ⟨rfl, ?_, hp, (sun_back p k hz).symm⟩ rfl
    rw [V3.sub_z, V3.smul_z, hz, sunDir_z]
    linarith
  · exact iff_of_false (fun h => by simp at h) (by simp)

theorem sun_visible (j : Int) (p : V3 ℝ) : exSunQ.visible (glowAt j p) ⟨.light, 4, makeInfinite sunDir 0 0⟩ = true ↔ ∃ j', hitOf exSunQ (p - (4 : ℝ) • sunDir) sunDir = some (j', p) := by
  show decide ((glowIsect ((glowAt j p).geom.p - (4 : ℝ) • sunDir) sunDir).map (fun h => h.geom.p) = some (glowAt j p).geom.p) = true ↔ _
  rw [decide_eq_true_iff, glow_p]
  show _ ↔ ∃ j', (glowIsect (p - (4 : ℝ) • sunDir) sunDir).map (fun h => (h.primitive, h.geom.p)) = some (j', p)
  cases glowIsect (p - (4 : ℝ) • sunDir) sunDir <;> simp

/-- The directional light meets the requirements. -/
theorem exSun_beam : BeamLamp exSunQ exFaces glowAt 4 (V3.all 1) sunDir 0 0 2 where
  nonneg := one_nonneg
  unit := sunDir_unit
  pos := two_pos
  within g hg p hp := by
    have hg : g = (1, glowTri) ∨ g = (2, lampTri) := by simpa [exFaces] using hg
    simp only [V3.dot, sub_zero]
    rcases hg with rfl | rfl
    · obtain ⟨h1, h2, h3, h4⟩ := (glowTri_inside p).mp hp
      rw [h4]; nlinarith
    · obtain ⟨h1, h2, h3, h4⟩ := (lampTri_inside p).mp hp
      rw [h4]; nlinarith
  once u v _ := Filter.Eventually.of_forall fun q h e => by
    rcases glow_isect e with ⟨hm, rfl⟩ | ⟨hm, rfl⟩
    · refine ⟨0, glowTri, rfl, by rw [glow_p]; exact hm.2.2.2, ?_, fun k' t' hk _ => ?_⟩
      · rw [glowTri_cross]; simp [V3.dot, sunDir]
      · match k', hk with
        | 0, _ => rfl
        | 1, hk => simp [exFaces, glowAt] at hk
        | k + 2, hk => simp [exFaces] at hk
    · exact absurd hm.2.2.1 (by rw [sunDir_z]; norm_num)
  seen g hg := (inside_ae g.2).mono fun p hp => by
    have hk : 0 < V3.dot (p - 0) sunDir + 2 := by
      have hg : g = (1, glowTri) ∨ g = (2, lampTri) := by simpa [exFaces] using hg
      simp only [sub_zero, V3.dot, sunDir]
      rcases hg with rfl | rfl
      · obtain ⟨h1, h2, h3, h4⟩ := (glowTri_inside p).mp hp
        rw [h4]; linarith
      · obtain ⟨h1, h2, h3, h4⟩ := (lampTri_inside p).mp hp
        rw [h4]; linarith
    rw [sun_sees hg hp hk, sun_visible]
    constructor
    · rintro ⟨j', h⟩
      obtain ⟨_, _, hi, _⟩ := (sun_hit _ _ _).mp h
      have hg : g = (1, glowTri) ∨ g = (2, lampTri) := by simpa [exFaces] using hg
      rcases hg with rfl | rfl
      · rfl
      · have h1 := ((glowTri_inside _).mp hi).2.2.2
        rw [((lampTri_inside _).mp hp).2.2.2] at h1
        norm_num at h1
    · intro h1
      exact ⟨g.1, (sun_sees hg hp (by norm_num)).mpr h1⟩
  measurable j := by
    have hs : {x | exSunQ.visible (glowAt j x) ⟨.light, 4, makeInfinite sunDir 0 0⟩ = true} = {x | Inside glowTri x} := by
      ext p
      simp only [mem_ofPred_eq]
      rw [sun_visible]
      constructor
      · rintro ⟨j', h⟩
        exact ((sun_hit _ _ _).mp h).2.2.1
      · intro h
        exact ⟨1, (sun_sees (g := (1, glowTri)) (by simp [exFaces]) h (by norm_num)).mpr rfl⟩
    rw [hs]
    exact measurable_inside'

theorem exSun_finite (o d : V3 ℝ) (s : SI) (e : exSunQ.isect o d = some s) : s.geom.infinite = false := (exBulb_hit e).2.1

/-! ### With an area light -/

noncomputable def sunLight (j : ℕ) : Light := if j = 0 then area (fun _ => false) 0 (V3.all 1) [glowTri] else slantSun
noncomputable def sunSrc (j : ℕ) : Source := if j = 0 then .extended else .beam (V3.all 1) sunDir 0

theorem exSun_two : (exSun true).st.lights.length = 2 := rfl

theorem exSun_bulbs (i : Fin 3) : Bulbs (exSun true) exSunQ exFaces glowAt i bulbNode (fun _ => 1) sunLight sunSrc (fun _ => 0) where
  table := {
    pos := two_pos
    entry := fun j hj => by
      rw [exSun_two] at hj
      obtain rfl | rfl : j = 0 ∨ j = 1 := by omega
      · rfl
      · rfl
    index := fun j hj => by
      rw [exSun_two] at hj
      obtain rfl | rfl : j = 0 ∨ j = 1 := by omega
      · rfl
      · rfl
    light := fun j hj => by
      rw [exSun_two] at hj
      obtain rfl | rfl : j = 0 ∨ j = 1 := by omega
      · rfl
      · rfl }
  only j hj L hL := by
    rcases glow_faces hj with rfl | rfl
    · exact ⟨0, by rw [exSun_two]; omega, rfl⟩
    · have : (exSun true).lightAt 2 = none := rfl
      rw [this] at hL; cases hL
  each l hl := by
    rw [exSun_two] at hl
    obtain rfl | rfl : l = 0 ∨ l = 1 := by omega
    · refine .inl ⟨rfl, rfl, _, _, _, _, rfl, ?_⟩
      have := exGlow_lamps
      exact ⟨this.size 0 one_pos, this.nonneg 0 one_pos, this.faces 0 one_pos, this.flat 0 one_pos⟩
    · exact .inr (.inl ⟨rfl, bulb_outside, exSun_beam.thrown exSun_faceted i _ 1⟩)

example (H : ℝ × ℝ → ℝ≥0∞) (hH : Measurable H) (i : Fin 3) (dir : ℝ × ℝ → V3 ℝ) (hdir : ∀ q, primaryRay exCam q.1 q.2 = some (dir q)) (N : ℕ) (hN : 2 ≤ N) (rs : ℕ → Rnd) :
    averageLight (fun u => ∫⁻ uc, average (N - 2) 2 rs (fun rs' => measured i H (ltSample (exSun true) exSunQ N u uc rs')) ∂uniform1) +
        ∫⁻ q, H q * (optics (exSun true) exSunQ i exComps).incoming 1 (camVertex (exSun true) 3 exCam) (dir q) ∂uniform2 =
      ∫⁻ q, H q * radianceLit (exSun true) exSunQ i exComps bulbNode sunSrc (N - 1) (camVertex (exSun true) 3 exCam) (dir q) ∂uniform2 := by
  have hm := exSun_matte true
  have hb := exSun_bulbs i
  rw [← finite_self exSun_finite] at hm hb
  exact C86_lamps_partial hm hb (fun x d _ => fromSky_dark exSun_finite x d) exComps (fun _ _ _ _ => rfl) dir hdir H hH N hN rs

/-! ### Without -/

theorem exSun_one : (exSun false).st.lights.length = 1 := rfl

theorem exSun_table : LightTable (exSun false) (fun _ => 4) (fun _ => 1) (fun _ => slantSun) where
  pos := one_pos
  entry j hj := by
    have : j = 0 := by rw [exSun_one] at hj; omega
    subst this; rfl
  index j hj := by
    have : j = 0 := by rw [exSun_one] at hj; omega
    subst this; rfl
  light _ _ := rfl

theorem exSun_dark {j : Int} (hj : j ∈ exFaces.map (·.1)) : (exSun false).lightAt j = none := by
  rcases glow_faces hj with rfl | rfl <;> rfl

theorem exSun_single (i : Fin 3) : Bulbs (exSun false) exSunQ exFaces glowAt i (fun _ => 4) (fun _ => 1) (fun _ => slantSun) (fun _ => .beam (V3.all 1) sunDir 0) (fun _ => 0) where
  table := exSun_table
  only j hj L hL := by rw [exSun_dark hj] at hL; cases hL
  each _ _ := .inr (.inl ⟨rfl, bulb_outside, exSun_beam.thrown exSun_faceted i _ 1⟩)

theorem exSun_lit (i : Fin 3) (sp : SI) : LitBy (exSun false) exSunQ i (fun _ => 4) (fun _ => 1) (fun _ => slantSun) (fun _ => .beam (V3.all 1) sunDir 0) sp where
  light j hj := ⟨⟨_, _, _, rfl⟩, one_nonneg, sunDir_unit⟩
  all d s e hs := by rw [exSun_dark (exBulb_hit e).1] at hs; cases hs
  measurable := by
    have : lightPdf (exSun false) exSunQ sp = fun _ => 0 := funext fun d => by
      unfold lightPdf
      cases e : exSunQ.isect sp.geom.p d with
      | none => rfl
      | some h => dsimp only; rw [exSun_dark (exBulb_hit e).1]
    rw [this]
    exact measurable_const

example (H : ℝ × ℝ → ℝ≥0∞) (hH : Measurable H) (i : Fin 3) (mode : Mode) (hmode : mode ≠ .naive) (N : ℕ) (hN : 2 ≤ N) (u : RaySampleU) (uc : ℝ) (rs : ℕ → Rnd) :
    averageLight (fun u => ∫⁻ uc, average (N - 2) 2 rs (fun rs' => measured i H (ltSample (exSun false) exSunQ N u uc rs')) ∂uniform1) + average 1 1 rs (fun rs' => measured i H (ptSample (exSun false) exSunQ ⟨mode, true, 2⟩ u uc rs')) =
      average (N - 1) 1 rs (fun rs' => measured i H (ptSample (exSun false) exSunQ ⟨mode, true, N⟩ u uc rs')) := by
  have hm := exSun_matte false
  have hb := exSun_single i
  rw [← finite_self exSun_finite] at hm hb
  exact C86_lamps_same_image_partial hm hb (fun x d _ => fromSky_dark exSun_finite x d)
    (fun o d s _ e hs => by rw [exSun_finite o d s e] at hs; cases hs) exComps (fun _ _ _ _ => rfl) rfl glow_unit (fun sp _ _ => exSun_lit i sp) H hH N hN mode hmode u uc rs

end LM.Transport
