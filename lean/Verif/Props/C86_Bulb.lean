import Verif.Props.C86_Lit
import Verif.Props.C86_Example
import Verif.Props.C100_Example
/-
  C86: a concrete scene with a point light: the triangles of `C86_Example`, of which the lower one may emit light, and between them a point light of intensity 1.
-/
namespace LM.Transport
open MeasureTheory LM LM.Surface LM.Material LM.Light LM.MathF LM.Path LM.Render LM.Solid Set
open scoped ENNReal

noncomputable def exBulbOps (a : Option ℕ) : List (Scene.Op (Aff ℝ)) :=
  [.createPrimitive ⟨some 0, some 1, a, none, none⟩, .createPrimitive ⟨some 1, some 0, none, none, none⟩, .createPrimitive ⟨none, none, none, some 0, none⟩, .createPrimitive ⟨none, none, some 1, none, none⟩,
    .addChild 0 1, .addChild 0 2, .addChild 0 3, .addChild 0 4]

noncomputable def exBulb (b : Bool) : World := { exGlowing with
  st := Scene.buildLights (Scene.run (fun _ => false) Scene.reset (exBulbOps (if b then some 0 else none))) [(0, 1), (1, 1), (2, 1), (3, 1), (4, 1)]
  light := fun j => if j = 0 then area (fun _ => false) 0 (V3.all 1) [glowTri] else bulb (1 / 2) }

theorem exBulb_camera (b : Bool) : (exBulb b).st.camera = some 3 := by cases b <;> rfl
theorem exBulb_cameraAt (b : Bool) : (exBulb b).cameraAt 3 = some exCam := by cases b <;> rfl
theorem exBulb_material (b : Bool) {j : Int} (hj : j ∈ exFaces.map (·.1)) : (exBulb b).materialAt j = some (diffuse fun _ => V3.all (1 / 2)) := by
  rcases glow_faces hj with rfl | rfl <;> cases b <;> rfl
theorem exBulb_eye (b : Bool) : camVertex (exBulb b) 3 exCam = camVertex exGlowing 3 exCam := by cases b <;> rfl

theorem exBulb_matte (b : Bool) : Matte (exBulb b) exGlowQ 3 exCam exFaces glowAt (fun _ => diffuse fun _ => V3.all (1 / 2)) (fun _ => {0}) glowF where
  camera := exBulb_camera b
  cameraAt := exBulb_cameraAt b
  proper := exCam_proper
  faceted := exGlow_faceted
  face := exGlow_matte.face
  surface j hj p := ⟨rfl, glow_on j p, exBulb_material b hj⟩
  normal := exGlow_matte.normal
  material := exGlow_matte.material
  eval := exGlow_matte.eval
  measurable := exGlow_matte.measurable
  reciprocal := exGlow_matte.reciprocal
  sight g hg := (exGlow_matte.sight g hg).mono fun p hp => by rw [exBulb_eye]; exact hp

/-- The point light meets the requirements. -/
theorem exBulb_point : PointLamp exGlowQ exFaces glowAt 4 (V3.all 1) ⟨0, 0, 1 / 2⟩ 0 where
  nonneg := one_nonneg
  seen g hg := (inside_ae g.2).mono fun p hp => by
    have hv := glow_visible (s1 := glowAt g.1 p) (s2 := ⟨.light, 4, makeDegenerated ⟨0, 0, 1 / 2⟩ 0⟩) (g := g) hg (by rw [glow_p]; exact hp)
    rw [glow_p] at hv
    exact hv
  measurable j := by
    set o : V3 ℝ := ⟨0, 0, 1 / 2⟩ with ho
    have hd : Measurable fun x : V3 ℝ => ((o, dirOf (x - o)) : V3 ℝ × V3 ℝ) := measurable_const.prodMk (measurable_dirOf.comp (measurable_sub3' measurable_id' measurable_const))
    have hz : ∀ z, MeasurableSet {x : V3 ℝ | atHeight z o (dirOf (x - o)) = x} := fun z => by
      have h1 : Measurable fun x : V3 ℝ => atHeight z o (dirOf (x - o)) := (measurable_atHeight' z).comp hd
      have e : {x : V3 ℝ | atHeight z o (dirOf (x - o)) = x} = {x | V3.dot (atHeight z o (dirOf (x - o)) - x) (atHeight z o (dirOf (x - o)) - x) = 0} := by
        ext x
        simp only [mem_ofPred_eq]
        constructor
        · intro h; rw [h]; simp [V3.dot]
        · intro h; exact sub_eq_zero.mp (dot_self_zero h)
      rw [e]
      have h2 := measurable_sub3' h1 measurable_id'
      exact measurableSet_eq_fun (measurable_dot3 h2 h2) measurable_const
    have hs : {x | exGlowQ.visible (glowAt j x) ⟨.light, 4, makeDegenerated o 0⟩ = true} =
        ({x | MeetsGlow o (dirOf (x - o))} ∩ {x | atHeight (-1) o (dirOf (x - o)) = x}) ∪ ({x | MeetsTop o (dirOf (x - o))} ∩ {x | atHeight 1 o (dirOf (x - o)) = x}) := by
      ext x
      show decide ((glowIsect o (dirOf ((glowAt j x).geom.p - o))).map (fun h => h.geom.p) = some (glowAt j x).geom.p) = true ↔ _
      rw [decide_eq_true_iff, glow_p]
      simp only [mem_union, mem_inter_iff, mem_ofPred_eq]
      unfold glowIsect
      by_cases h1 : MeetsGlow o (dirOf (x - o))
      · have h2 : ¬ MeetsTop o (dirOf (x - o)) := fun hc => lt_asymm h1.2.2.1 hc.2.2.1
        rw [if_pos h1]
        simp [h1, h2, glow_p]
      · rw [if_neg h1]
        by_cases h2 : MeetsTop o (dirOf (x - o))
        · rw [if_pos h2]
          simp [h1, h2, glow_p]
        · rw [if_neg h2]
          simp [h1, h2]
    rw [hs]
    exact ((measurable_meets_glow.preimage hd).inter (hz _)).union ((measurable_meets_top.preimage hd).inter (hz _))

theorem exBulb_hit {o d : V3 ℝ} {h : SI} (e : exGlowQ.isect o d = some h) : h.primitive ∈ exFaces.map (·.1) ∧ h.geom.infinite = false ∧ (h.geom.p.z = -1 ∨ h.geom.p.z = 1) := by
  rcases glow_isect e with ⟨hm, rfl⟩ | ⟨hm, rfl⟩
  · exact ⟨by simp [exFaces, glowAt], (exGlow_faceted.at_point _ _).2.2.1, .inl (by rw [glow_p]; exact ((glowTri_inside _).mp hm.2.2.2).2.2.2)⟩
  · exact ⟨by simp [exFaces, glowAt], (exGlow_faceted.at_point _ _).2.2.1, .inr (by rw [glow_p]; exact ((lampTri_inside _).mp hm.2.2.2).2.2.2)⟩

theorem exBulb_finite (o d : V3 ℝ) (s : SI) (e : exGlowQ.isect o d = some s) : s.geom.infinite = false := (exBulb_hit e).2.1

theorem bulb_outside : (4 : Int) ∉ exFaces.map (·.1) := by simp [exFaces]

/-! ### With an area light -/

def bulbNode (j : ℕ) : Int := if j = 0 then 1 else 4
noncomputable def bulbLight (j : ℕ) : Light := if j = 0 then area (fun _ => false) 0 (V3.all 1) [glowTri] else bulb (1 / 2)
noncomputable def bulbSrc (j : ℕ) : Source := if j = 0 then .extended else .point (V3.all 1) ⟨0, 0, 1 / 2⟩ 0

theorem exBulb_two : (exBulb true).st.lights.length = 2 := rfl

theorem exBulb_bulbs (i : Fin 3) : Bulbs (exBulb true) exGlowQ exFaces glowAt i bulbNode (fun _ => 1) bulbLight bulbSrc (fun _ => 0) where
  table := {
    pos := two_pos
    entry := fun j hj => by
      rw [exBulb_two] at hj
      obtain rfl | rfl : j = 0 ∨ j = 1 := by omega
      · rfl
      · rfl
    index := fun j hj => by
      rw [exBulb_two] at hj
      obtain rfl | rfl : j = 0 ∨ j = 1 := by omega
      · rfl
      · rfl
    light := fun j hj => by
      rw [exBulb_two] at hj
      obtain rfl | rfl : j = 0 ∨ j = 1 := by omega
      · rfl
      · rfl }
  only j hj L hL := by
    rcases glow_faces hj with rfl | rfl
    · exact ⟨0, by rw [exBulb_two]; omega, rfl⟩
    · have : (exBulb true).lightAt 2 = none := rfl
      rw [this] at hL; cases hL
  each l hl := by
    rw [exBulb_two] at hl
    obtain rfl | rfl : l = 0 ∨ l = 1 := by omega
    · refine .inl ⟨rfl, rfl, _, _, _, _, rfl, ?_⟩
      have := exGlow_lamps
      exact ⟨this.size 0 one_pos, this.nonneg 0 one_pos, this.faces 0 one_pos, this.flat 0 one_pos⟩
    · exact .inr (.inl ⟨rfl, bulb_outside, exBulb_point.thrown exGlow_faceted i 1⟩)

example (H : ℝ × ℝ → ℝ≥0∞) (hH : Measurable H) (i : Fin 3) (dir : ℝ × ℝ → V3 ℝ) (hdir : ∀ q, primaryRay exCam q.1 q.2 = some (dir q)) (N : ℕ) (hN : 2 ≤ N) (rs : ℕ → Rnd) :
    averageLight (fun u => ∫⁻ uc, average (N - 2) 2 rs (fun rs' => measured i H (ltSample (exBulb true) exGlowQ N u uc rs')) ∂uniform1) +
        ∫⁻ q, H q * (optics (exBulb true) exGlowQ i exComps).incoming 1 (camVertex (exBulb true) 3 exCam) (dir q) ∂uniform2 =
      ∫⁻ q, H q * radianceLit (exBulb true) exGlowQ i exComps bulbNode bulbSrc (N - 1) (camVertex (exBulb true) 3 exCam) (dir q) ∂uniform2 := by
  have hm := exBulb_matte true
  have hb := exBulb_bulbs i
  rw [← finite_self exBulb_finite] at hm hb
  exact C86_lamps_partial hm hb (fun x d _ => fromSky_dark exBulb_finite x d) exComps (fun _ _ _ _ => rfl) dir hdir H hH N hN rs

/-! ### Without -/

theorem exBulb_one : (exBulb false).st.lights.length = 1 := rfl

theorem exBulb_table : LightTable (exBulb false) (fun _ => 4) (fun _ => 1) (fun _ => bulb (1 / 2)) where
  pos := one_pos
  entry j hj := by
    have : j = 0 := by rw [exBulb_one] at hj; omega
    subst this; rfl
  index j hj := by
    have : j = 0 := by rw [exBulb_one] at hj; omega
    subst this; rfl
  light _ _ := rfl

theorem exBulb_dark {j : Int} (hj : j ∈ exFaces.map (·.1)) : (exBulb false).lightAt j = none := by
  rcases glow_faces hj with rfl | rfl <;> rfl

theorem exBulb_single (i : Fin 3) : Bulbs (exBulb false) exGlowQ exFaces glowAt i (fun _ => 4) (fun _ => 1) (fun _ => bulb (1 / 2)) (fun _ => .point (V3.all 1) ⟨0, 0, 1 / 2⟩ 0) (fun _ => 0) where
  table := exBulb_table
  only j hj L hL := by rw [exBulb_dark hj] at hL; cases hL
  each _ _ := .inr (.inl ⟨rfl, bulb_outside, exBulb_point.thrown exGlow_faceted i 1⟩)

theorem exBulb_lit (i : Fin 3) (sp : SI) (wi : V3 ℝ) (hv : Vertex (exBulb false) exGlowQ 3 exCam sp wi) : LitBy (exBulb false) exGlowQ i (fun _ => 4) (fun _ => 1) (fun _ => bulb (1 / 2)) (fun _ => .point (V3.all 1) ⟨0, 0, 1 / 2⟩ 0) sp where
  light j hj := by
    refine ⟨rfl, one_nonneg, ?_, fun e => ?_, fun o d s e hc => ?_⟩
    · rcases hv with ⟨rfl, _⟩ | ⟨o, d, hd, e, hf, _⟩
      · rfl
      · exact hf
    · have hz : sp.geom.p.z = 1 / 2 := by rw [e]
      rcases hv with ⟨rfl, _⟩ | ⟨o, d, hd, e', hf, _⟩
      · have : (0 : ℝ) = 1 / 2 := hz
        norm_num at this
      · rcases (exBulb_hit e').2.2 with h | h <;> rw [h] at hz <;> norm_num at hz
    · exact bulb_outside (hc ▸ (exBulb_hit e).1)
  all d s e hs := by rw [exBulb_dark (exBulb_hit e).1] at hs; cases hs
  measurable := by
    have : lightPdf (exBulb false) exGlowQ sp = fun _ => 0 := funext fun d => by
      unfold lightPdf
      cases e : exGlowQ.isect sp.geom.p d with
      | none => rfl
      | some h => dsimp only; rw [exBulb_dark (exBulb_hit e).1]
    rw [this]
    exact measurable_const

example (H : ℝ × ℝ → ℝ≥0∞) (hH : Measurable H) (i : Fin 3) (mode : Mode) (hmode : mode ≠ .naive) (N : ℕ) (hN : 2 ≤ N) (u : RaySampleU) (uc : ℝ) (rs : ℕ → Rnd) :
    averageLight (fun u => ∫⁻ uc, average (N - 2) 2 rs (fun rs' => measured i H (ltSample (exBulb false) exGlowQ N u uc rs')) ∂uniform1) + average 1 1 rs (fun rs' => measured i H (ptSample (exBulb false) exGlowQ ⟨mode, true, 2⟩ u uc rs')) =
      average (N - 1) 1 rs (fun rs' => measured i H (ptSample (exBulb false) exGlowQ ⟨mode, true, N⟩ u uc rs')) := by
  have hm := exBulb_matte false
  have hb := exBulb_single i
  rw [← finite_self exBulb_finite] at hm hb
  exact C86_lamps_same_image_partial hm hb (fun x d _ => fromSky_dark exBulb_finite x d)
    (fun o d s _ e hs => by rw [exBulb_finite o d s e] at hs; cases hs) exComps (fun _ _ _ _ => rfl) rfl glow_unit (exBulb_lit i) H hH N hN mode hmode u uc rs

end LM.Transport
