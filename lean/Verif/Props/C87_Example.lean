import Verif.Props.C87_Bidirectional
import Verif.Props.C86_Example
/-
  C87: the theorems in the scene of C86_Example: a triangle which emits light, below another triangle, and a camera between them.
-/
namespace LM.Transport
open MeasureTheory LM LM.Surface LM.Material LM.Light LM.MathF LM.Path LM.Render LM.Solid LM.Chain Set
open scoped ENNReal

open Classical in
/-- The density of the directions of the diffuse material. -/
noncomputable def glowP (j : Int) (_ : ℕ) (p wi wo : V3 ℝ) : ℝ := if opposite (glowAt j p).geom wi wo then 0 else 1 / Real.pi

theorem exGlow_listed (j : Int) (L : Light.Light) (h : exGlowing.lightAt j = some L) : j = 1 := by
  have e : (exGlowing.prim j).bind (fun p => p.light.map exGlowing.light) = some L := h
  obtain ⟨p, hp, hl⟩ := Option.bind_eq_some_iff.mp e
  have hneg : ¬ j < 0 := fun hj => by simp [World.prim, Scene.at?, hj] at hp
  have hlen : j < 4 := by
    by_contra hc
    have : exGlowing.st.nodes[j.toNat]? = none := List.getElem?_eq_none (by show 4 ≤ _; omega)
    simp [World.prim, Scene.at?, hneg, this] at hp
  have hj : j = 0 ∨ j = 1 ∨ j = 2 ∨ j = 3 := by omega
  rcases hj with rfl | rfl | rfl | rfl
  · have : exGlowing.lightAt 0 = none := rfl
    rw [this] at h; cases h
  · rfl
  · have : exGlowing.lightAt 2 = none := rfl
    rw [this] at h; cases h
  · have : exGlowing.lightAt 3 = none := rfl
    rw [this] at h; cases h

theorem exGlow_paths : PathScene exGlowing exGlowQ 3 exCam exFaces glowAt (fun _ => diffuse fun _ => V3.all (1 / 2)) (fun _ => {0}) glowF glowP (fun _ _ _ _ => 1) (fun _ => 1) (fun _ => 1) (fun _ => false) 0 (fun _ => V3.all 1) (fun _ => [glowTri]) where
  matte := exGlow_matte
  lamps := exGlow_lamps
  flat j _ p := by rw [glow_normal, glow_gn]
  pdf j _ c _ p wi wo _ _ _ := rfl
  pdf_measurable j c := by
    unfold glowP
    simp_rw [glow_opposite]
    refine Measurable.ite (measurableSet_le ?_ measurable_const) measurable_const measurable_const
    exact (measurable_z.comp (measurable_fst.comp measurable_snd)).mul (measurable_z.comp (measurable_snd.comp measurable_snd))
  component j _ c _ p wi _ _ := ⟨rfl, one_pos⟩
  component_measurable j c := measurable_const
  select j _ p wi _ _ u _ _ c w e := by
    have : (0, (1 : ℝ)) = (c, w) := Option.some.inj e
    have : (1 : ℝ) = w := congrArg Prod.snd this
    rw [← this]; norm_num
  listed j L h := ⟨0, one_pos, exGlow_listed j L h⟩
  other := by simp [exFaces]
  place a b c h _ _ _ := by
    show decide _ = decide _
    rw [h]
  sight s hs t ht p q hp hq h1 h2 := by
    rw [glow_visible hs (by rw [glow_p]; exact hp), glow_p, glow_p]
    exact (exGlow_faceted.both s hs t ht p q hp hq h1 h2).symm

/-- All five renderers compute the same image of this scene, for every number of vertices. -/
example (H : ℝ × ℝ → ℝ≥0∞) (hH : Measurable H) (i : Fin 3) (N : ℕ) (hN : 2 ≤ N) (px : Bool) (u : RaySampleU) (uc : ℝ) (rs rsE rsL : ℕ → Rnd) :
    average N 0 rsE (fun a => average N 0 rsL (fun b => measured i H (bdptSample exGlowing exGlowQ 2 N a b))) = average (N - 1) 1 rs (fun rs' => measured i H (ptSample exGlowing exGlowQ ⟨.naive, px, N⟩ u uc rs')) :=
  (C87_same_image exGlow_paths i exComps (fun _ _ _ _ => rfl) rfl glow_unit H hH N hN px u uc rs rsE rsL).1

/-- The hypotheses of the other theorems, with paths of at least 3 vertices: without the light that is seen directly. -/
example (H : ℝ × ℝ → ℝ≥0∞) (hH : Measurable H) (i : Fin 3) (N : ℕ) (hN : 3 ≤ N) (px : Bool) (u : RaySampleU) (uc : ℝ) (rs rsE rsL : ℕ → Rnd) (dir : ℝ × ℝ → V3 ℝ) (hdir : ∀ q, primaryRay exCam q.1 q.2 = some (dir q)) :
    average N 0 rsE (fun a => average N 0 rsL (fun b => measured i H (bdptSample exGlowing exGlowQ 3 N a b))) + average 1 1 rs (fun rs' => measured i H (ptSample exGlowing exGlowQ ⟨.naive, px, 2⟩ u uc rs')) =
      average (N - 1) 1 rs (fun rs' => measured i H (ptSample exGlowing exGlowQ ⟨.naive, px, N⟩ u uc rs')) := by
  rw [exGlow_paths.pt i exComps (fun _ _ _ _ => rfl) rfl glow_unit dir hdir H hH N px u uc rs, show average 1 1 rs _ = _ from exGlow_paths.pt i exComps (fun _ _ _ _ => rfl) rfl glow_unit dir hdir H hH 2 px u uc rs]
  exact C87_bdpt exGlow_paths i exComps (fun _ _ _ _ => rfl) dir hdir H hH 3 N (by norm_num) hN rsE rsL

example (H : ℝ × ℝ → ℝ≥0∞) (hH : Measurable H) (i : Fin 3) (rsE rsL : ℕ → Rnd) (dir : ℝ × ℝ → V3 ℝ) (hdir : ∀ q, primaryRay exCam q.1 q.2 = some (dir q)) :
    average 5 0 rsE (fun a => measured i H (ptNaivePathSample exGlowing exGlowQ 3 5 a)) + ∫⁻ q, H q * (optics exGlowing exGlowQ i exComps).incoming 1 (camVertex exGlowing 3 exCam) (dir q) ∂uniform2 =
        ∫⁻ q, H q * (optics exGlowing exGlowQ i exComps).incoming 4 (camVertex exGlowing 3 exCam) (dir q) ∂uniform2 ∧
      average 5 0 rsE (fun a => average 1 0 rsL (fun b => measured i H (ptNeePathSample exGlowing exGlowQ 3 5 a b))) + ∫⁻ q, H q * (optics exGlowing exGlowQ i exComps).incoming 1 (camVertex exGlowing 3 exCam) (dir q) ∂uniform2 =
        average 1 0 rsE (fun a => average 5 0 rsL (fun b => measured i H (ltNeePathSample exGlowing exGlowQ 3 5 a b))) + ∫⁻ q, H q * (optics exGlowing exGlowQ i exComps).incoming 1 (camVertex exGlowing 3 exCam) (dir q) ∂uniform2 :=
  ⟨C87_pt_naive_path exGlow_paths i exComps (fun _ _ _ _ => rfl) dir hdir H hH 3 5 (by norm_num) (by norm_num) rsE, (C87_pt_nee_path exGlow_paths i exComps (fun _ _ _ _ => rfl) dir hdir H hH 3 5 (by norm_num) (by norm_num) rsE rsL).trans (C87_lt_nee_path exGlow_paths i exComps (fun _ _ _ _ => rfl) dir hdir H hH 3 5 (by norm_num) (by norm_num) rsE rsL).symm⟩

end LM.Transport
