import Verif.Model.PathApi
import Verif.Props.C40_Traverse
import Verif.Props.C46_Light
import Verif.Props.C47_Camera
import Verif.Props.C45_Material
import Verif.Props.C59_Phase
import Verif.Props.C58_Medium
namespace LM.Surface

section
variable {K : Type} [Field K]

/-- Composition of transforms: the product of the 4×4 matrices. -/
instance : Mul (Aff K) := ⟨fun A B => ⟨A.lin B.c1, A.lin B.c2, A.lin B.c3, A.app B.t⟩⟩
instance : One (Aff K) := ⟨⟨⟨1, 0, 0⟩, ⟨0, 1, 0⟩, ⟨0, 0, 1⟩, 0⟩⟩

theorem Aff.mul_def (A B : Aff K) : A * B = ⟨A.lin B.c1, A.lin B.c2, A.lin B.c3, A.app B.t⟩ := rfl
theorem Aff.one_def : (1 : Aff K) = ⟨⟨1, 0, 0⟩, ⟨0, 1, 0⟩, ⟨0, 0, 1⟩, 0⟩ := rfl

instance : Monoid (Aff K) where
  one_mul A := by
    rw [Aff.mul_def, Aff.one_def]
    cases A
    congr 1 <;> (simp only [Aff.lin, Aff.app]; ext <;> simp)
  mul_one A := by
    rw [Aff.mul_def, Aff.one_def]
    cases A
    congr 1 <;> (simp only [Aff.lin, Aff.app]; ext <;> simp)
  mul_assoc A B C := by
    simp only [Aff.mul_def]
    congr 1
    all_goals
      simp only [Aff.lin, Aff.app]
      ext
      all_goals
        simp only [V3.add_x, V3.add_y, V3.add_z, V3.smul_x, V3.smul_y, V3.smul_z]
        ring

end

end LM.Surface

namespace LM.Path
open LM LM.Surface LM.Material LM.Light LM.Volume

/-! ### Specification -/

/-- Random numbers in [0,1). -/
def RaySampleU.Valid (u : RaySampleU) : Prop := (0 ≤ u.upc0 ∧ u.upc0 < 1) ∧ u.toLight.Valid

/-- The scene was made by calls of the scene API, and its light tables by build(). -/
def World.Built (W : World) : Prop :=
  ∃ (isEnv : ℕ → Bool) (ops : List (Scene.Op (Aff ℝ))) (fuel : ℕ) (out : List (Int × Aff ℝ)), (∀ op ∈ ops, Scene.OpOk op) ∧
    Scene.traverse (Scene.run isEnv Scene.reset ops).nodes fuel = .done out ∧ W.st = Scene.buildLights (Scene.run isEnv Scene.reset ops) out

/-- Every light primitive is reached from the root in one way only: it is not instanced. -/
def World.OneWay (W : World) : Prop := ∀ p q j T T', Scene.LightPath W.st.nodes p j T → Scene.LightPath W.st.nodes q j T' → p = q

/-- Every light of the scene, with its transform, satisfies P. -/
def World.AllLights (W : World) (P : Light → Aff ℝ → Prop) : Prop := ∀ p j T L, Scene.LightPath W.st.nodes p j T → W.lightAt j = some L → P L T

/-- Some light is in the scene. -/
def World.HasLight (W : World) : Prop := ∃ p j T, Scene.LightPath W.st.nodes p j T

/-- weight · density = contribution, for a sample with reported density `pdf` and contribution `f`. -/
def Balanced (pdf : Option ℝ) (f : Option (V3 ℝ)) (C : V3 ℝ) : Prop := ∃ p v, pdf = some p ∧ f = some v ∧ 0 < p ∧ p • C = v

/-! ### Lemmas -/

theorem tables (W : World) (hb : W.Built) (i : ℕ) (M : Aff ℝ) (n : Int) (h : Scene.lightPrimitiveIndexAt W.st i = some (M, n)) :
    (W.OneWay → Scene.lightIndexAt W.st n = some i) ∧ (∃ p, Scene.LightPath W.st.nodes p n M) ∧ ∃ L, W.lightAt n = some L := by
  obtain ⟨isEnv, ops, fuel, out, hok, ht, hst⟩ := hb
  have hw := Scene.C39_wellformed isEnv ops hok
  have hn : W.st.nodes = (Scene.run isEnv Scene.reset ops).nodes := by rw [hst]; exact (Scene.buildLights_spec _ out).2.1
  rw [hst] at h
  have hp := (Scene.C41_selectable _ hw fuel out ht M n).mp ⟨i, h⟩
  refine ⟨fun h1 => ?_, by rw [hn]; exact hp, ?_⟩
  · rw [hst]
    refine Scene.C41_inverse_partial _ hw fuel out ht ?_ i M n h
    intro p q j T T' a b
    exact h1 p q j T T' (by rw [hn]; exact a) (by rw [hn]; exact b)
  · obtain ⟨p, pr, ts, _, hpr, hl, _⟩ := hp
    obtain ⟨l, hl⟩ := Option.isSome_iff_exists.mp hl
    refine ⟨W.light l, ?_⟩
    have : W.prim n = some pr := by
      unfold World.prim
      rw [hn]
      unfold Scene.primAt at hpr
      split at hpr
      · next heq => rw [heq]; simpa using hpr
      · cases hpr
    simp [World.lightAt, this, hl]

theorem has_light (W : World) (hb : W.Built) (hl : W.HasLight) : 0 < W.st.lights.length := by
  obtain ⟨isEnv, ops, fuel, out, hok, ht, hst⟩ := hb
  have hn : W.st.nodes = (Scene.run isEnv Scene.reset ops).nodes := by rw [hst]; exact (Scene.buildLights_spec _ out).2.1
  obtain ⟨p, j, T, hp⟩ := hl
  rw [hn] at hp
  obtain ⟨i, hi⟩ := (Scene.C41_selectable _ (Scene.C39_wellformed isEnv ops hok) fuel out ht T j).mpr ⟨p, hp⟩
  rw [← hst] at hi
  unfold Scene.lightPrimitiveIndexAt at hi
  rw [if_neg (by omega)] at hi
  have := List.getElem?_eq_some_iff.mp hi
  obtain ⟨hlt, _⟩ := this
  omega

/-- What light sampling does: the index is in the table, and the density of any light with an inverse table entry is its own over the number of lights. -/
theorem sampleFromLight_spec (W : World) (hb : W.Built) (hl : W.HasLight) (u : ℝ) (h0 : 0 ≤ u) (h1 : u < 1) (divide : Bool) (f : Light → Aff ℝ → Res) :
    ∃ (i : ℕ) (M : Aff ℝ) (n : Int) (L : Light), Scene.lightPrimitiveIndexAt W.st i = some (M, n) ∧ W.lightAt n = some L ∧ (∃ p, Scene.LightPath W.st.nodes p n M) ∧
      sampleFromLight W u divide f = wrap .light n (if divide then (W.st.lights.length : ℝ) else 1) (f L M) ∧
      ∀ (_ : W.OneWay) (g : Light → Aff ℝ → Option ℝ) (p : ℝ), g L M = some p → pdfOnLight W n g = some (1 / (W.st.lights.length : ℝ) * p) := by
  have hn := has_light W hb hl
  obtain ⟨a, b, _, d, _⟩ := Scene.C42_uniform W.st.lights.length hn u h0 h1
  obtain ⟨k, hk⟩ := Int.eq_ofNat_of_zero_le a
  have hkl : k < W.st.lights.length := by rw [hk] at b; exact_mod_cast b
  obtain ⟨⟨M, n⟩, hx⟩ : ∃ x, W.st.lights[k] = x := ⟨_, rfl⟩
  have hi : Scene.lightPrimitiveIndexAt W.st (k : ℕ) = some (M, n) := by
    unfold Scene.lightPrimitiveIndexAt
    rw [if_neg (by omega)]
    simp [hkl, hx]
  obtain ⟨t1, t2, L, hL⟩ := tables W hb k M n hi
  refine ⟨k, M, n, L, hi, hL, t2, ?_, fun ho g p hg => ?_⟩
  · have e : Scene.sampleLightSelection W.st.lights.length u = ((k : Int), some (1 / (W.st.lights.length : ℝ))) := by
      refine Prod.ext hk ?_
      rw [(d 0).1, (d 0).2]
    unfold sampleFromLight
    simp only [e, hi, hL, one_div, inv_inv]
  · have ho' := t1 ho
    simp only [pdfOnLight, ho', hi, (d (k : Int)).2, hL, hg, Option.bind_eq_bind, Option.bind_some, Option.pure_def]

theorem smul_cancel (n p : ℝ) (hn : n ≠ 0) (C : V3 ℝ) : (1 / n * p) • (n • C) = p • C := by
  rw [smul_smul]; congr 1; field_simp

/-! ### Primary rays -/

/-- C46 (partial: lights reached in one way). Sampling a primary ray from the lights of a scene: a ray is always returned, its light endpoint belongs to the scene, and weight · density
    (as reported by pdf_primary_ray) = emission, for every number of lights. Missing: instanced lights, see the negation. -/
theorem C46_path_primary_light_partial (W : World) (hb : W.Built) (ho : W.OneWay) (hl : W.HasLight) (hL : W.AllLights RayEst) (u : RaySampleU) (hu : u.Valid) :
    ∃ sp wo C, samplePrimaryRay W u .LE = .ok sp wo C ∧ sp.kind = .light ∧ V3.dot wo wo = 1 ∧
      ∀ wi comp dir, Balanced (pdfPrimaryRay W sp wo false) (evalContrbDirection W sp wi wo comp dir false) C := by
  obtain ⟨i, M, n, L, hi, hLn, ⟨q, hq⟩, hs, hp⟩ := sampleFromLight_spec W hb hl u.upc0 hu.1.1 hu.1.2 true (fun L M => L.sampleRay u.toLight M)
  obtain ⟨g, wo, C, p, e, hw, hpdf, hp0, hC⟩ := hL q n M L hq hLn u.toLight hu.2
  have hn : (0 : ℝ) < W.st.lights.length := by exact_mod_cast has_light W hb hl
  refine ⟨⟨.light, n, g⟩, wo, (W.st.lights.length : ℝ) • C, ?_, rfl, hw, fun wi comp dir => ?_⟩
  · unfold samplePrimaryRay
    rw [hs, e]; rfl
  · refine ⟨1 / (W.st.lights.length : ℝ) * p, L.eval g wo false, ?_, ?_, by positivity, ?_⟩
    · unfold pdfPrimaryRay
      exact hp ho (fun L M => L.pdfRay g wo M false) p hpdf
    · simp only [evalContrbDirection, hLn]
    · rw [smul_cancel _ _ hn.ne', hC]

/-- C46. Primary rays from the camera. -/
theorem C46_path_primary_camera (W : World) (n : Int) (c : Camera) (hc : W.st.camera = some n) (hcn : W.cameraAt n = some c) (h : c.Proper) (u : RaySampleU) (hu : u.Valid) :
    ∃ sp wo C, samplePrimaryRay W u .EL = .ok sp wo C ∧ sp.kind = .camera ∧ sp.geom.p = c.position ∧ V3.dot wo wo = 1 ∧ rasterPosition c wo = some (u.ud0, u.ud1) ∧
      ∀ wi comp dir, Balanced (pdfPrimaryRay W sp wo false) (evalContrbDirection W sp wi wo comp dir false) C := by
  obtain ⟨d, p, e, hd, hp, hp0, he⟩ := C46_camera_ray c h W.junk u.toLight hu.2
  refine ⟨⟨.camera, n, makeDegenerated c.position W.junk⟩, d, (1 : ℝ) • V3.all 1, by simp only [samplePrimaryRay, hc, hcn, e, wrap], rfl, rfl, hd, ?_, fun wi comp dir => ?_⟩
  · obtain ⟨d', e', _, ht⟩ := C47_primary c h u.ud0 u.ud1
    have : d' = d := by
      unfold camSampleRay at e
      have e'' : primaryRay c u.toLight.ud0 u.toLight.ud1 = some d' := e'
      rw [e''] at e
      cases e; rfl
    subst this
    rw [C47_raster c h d' _ _ ht, if_pos ⟨⟨hu.2.2.2.2.1.1, hu.2.2.2.2.1.2.le⟩, ⟨hu.2.2.2.2.2.1, hu.2.2.2.2.2.2.le⟩⟩]
  · exact ⟨p, _, by simp only [pdfPrimaryRay, hcn, Option.bind_some, hp], by simp only [evalContrbDirection, hcn]; exact he, hp0, by rw [one_smul]⟩

/-! ### Direct endpoints -/

/-- C46 (partial: lights reached in one way). Sampling a light towards a point: whenever a ray is returned, weight · density (pdf_direct) = emission. Missing: lights placed several times (C46_negation_instanced). -/
theorem C46_path_direct_light_partial (W : World) (hb : W.Built) (ho : W.OneWay) (hl : W.HasLight) (sp : SI)
    (hL : W.AllLights (fun L M => ∀ us : RayU, us.Valid → DirectEst L sp.geom M (L.sampleDirect us sp.geom M))) (u : RaySampleU) (hu : u.Valid)
    (spL : SI) (wo C : V3 ℝ) (hr : sampleDirect W u sp .LE = .ok spL wo C) :
    spL.kind = .light ∧ V3.dot wo wo = 1 ∧ ∀ wi comp dir, Balanced (pdfDirect W sp spL wo false) (evalContrbDirection W spL wi wo comp dir false) C := by
  obtain ⟨i, M, n, L, hi, hLn, ⟨q, hq⟩, hs, hp⟩ := sampleFromLight_spec W hb hl u.upc0 hu.1.1 hu.1.2 true (fun L M => L.sampleDirect u.toLight sp.geom M)
  have hn : (0 : ℝ) < W.st.lights.length := by exact_mod_cast has_light W hb hl
  unfold sampleDirect at hr
  rw [hs] at hr
  cases e : L.sampleDirect u.toLight sp.geom M with
  | fail => rw [e] at hr; cases hr
  | undef => rw [e] at hr; cases hr
  | unsupported => rw [e] at hr; cases hr
  | ok g wo' C' =>
    rw [e] at hr
    cases hr
    obtain ⟨hw, p, hpdf, hp0, hC⟩ := hL q n M L hq hLn u.toLight hu.2 g wo C' e
    refine ⟨rfl, hw, fun wi comp dir => ⟨1 / (W.st.lights.length : ℝ) * p, L.eval g wo false, ?_, ?_, by positivity, ?_⟩⟩
    · unfold pdfDirect
      exact hp ho (fun L M => L.pdfDirect sp.geom g M wo false) p hpdf
    · simp only [evalContrbDirection, hLn]
    · simp only [if_true]; rw [smul_cancel _ _ hn.ne', hC]

/-- C46 (partial: endpoints in the frame of the camera). Sampling the camera towards a point. Missing: points outside of the frame (C46_negation_camera_direct). -/
theorem C46_path_direct_camera_partial (W : World) (n : Int) (c : Camera) (hc : W.st.camera = some n) (hcn : W.cameraAt n = some c) (h : c.Proper) (u : RaySampleU) (sp : SI)
    (hf : sp.geom.infinite = false) (hne : sp.geom.p ≠ c.position) (spE : SI) (wo C : V3 ℝ) (hr : sampleDirect W u sp .EL = .ok spE wo C) (hin : (rasterPosition c wo).isSome) :
    spE.kind = .camera ∧ V3.dot wo wo = 1 ∧ ∀ wi comp dir, Balanced (pdfDirect W sp spE wo false) (evalContrbDirection W spE wi wo comp dir false) C := by
  obtain ⟨wo', hw, hw1, hG⟩ := C46_camera_direct_partial c h W.junk sp.geom hf hne
  simp only [sampleDirect, hc, hcn] at hr
  have hwo : ∀ g' wo'' C', camSampleDirect c W.junk sp.geom = .ok g' wo'' C' → wo'' = wo' := by
    intro g' wo'' C' e
    unfold camSampleDirect at e
    simp only [hf, Bool.false_eq_true, if_false, hw] at e
    cases hJ : camJ c wo' with
    | none => rw [hJ] at e; cases e
    | some J =>
      rw [hJ] at e
      unfold rayOrFail ray at e
      simp only at e
      split at e
      · cases e
      · split at e
        · cases e
        · split at e
          · cases e
          · cases e; rfl
  cases e : camSampleDirect c W.junk sp.geom with
  | fail => rw [e] at hr; cases hr
  | undef => rw [e] at hr; cases hr
  | unsupported => rw [e] at hr; cases hr
  | ok g wo'' C' =>
    have := hwo _ _ _ e
    subst this
    rw [e] at hr
    cases hr
    obtain ⟨G, _, g1, g2⟩ := hG hin
    by_cases hz : G = 0
    · rw [g1 hz] at e; cases e
    · obtain ⟨C2, p, e2, hp, hp0, he⟩ := g2 hz
      rw [e] at e2
      cases e2
      exact ⟨rfl, hw1, fun wi comp dir => ⟨p, _, by simp only [pdfDirect, hcn, Option.bind_some, hp], by simp only [evalContrbDirection, hcn]; exact he, hp0, by rw [one_smul]⟩⟩

/-! ### Endpoint positions -/

/-- C46. The camera's position: weight and density 1. -/
theorem C46_path_position_camera (W : World) (n : Int) (c : Camera) (hc : W.st.camera = some n) (hcn : W.cameraAt n = some c) (u : RaySampleU) :
    ∃ sp wo C, samplePosition W u .EL = .ok sp wo C ∧ sp.kind = .camera ∧ sp.geom.p = c.position ∧ Balanced (pdfPosition W sp) (some (V3.all 1)) C := by
  exact ⟨⟨.camera, n, makeDegenerated c.position W.junk⟩, 0, V3.all 1, by simp only [samplePosition, hc, hcn], rfl, rfl, 1, _, by simp only [pdfPosition, hcn, Option.map_some], rfl, one_pos, by rw [one_smul]⟩

theorem position_light (W : World) (hb : W.Built) (ho : W.OneWay) (hl : W.HasLight) (hL : W.AllLights PosEst) (u : RaySampleU) (hu : u.Valid) :
    ∃ sp wo C p, samplePosition W u .LE = .ok sp wo C ∧ sp.kind = .light ∧ pdfPosition W sp = some p ∧ 0 < p ∧ p • C = (1 / (W.st.lights.length : ℝ)) • V3.all 1 := by
  obtain ⟨i, M, n, L, hi, hLn, ⟨q, hq⟩, hs, hp⟩ := sampleFromLight_spec W hb hl u.upc0 hu.1.1 hu.1.2 false (fun L M => L.samplePosition u.toLight M)
  obtain ⟨g, wo, C, p, e, hpdf, hp0, hC⟩ := hL q n M L hq hLn u.toLight hu.2
  have hn : (0 : ℝ) < W.st.lights.length := by exact_mod_cast has_light W hb hl
  refine ⟨⟨.light, n, g⟩, wo, (1 : ℝ) • C, 1 / (W.st.lights.length : ℝ) * p, ?_, rfl, ?_, by positivity, ?_⟩
  · unfold samplePosition
    rw [hs, e]; rfl
  · unfold pdfPosition
    exact hp ho (fun L M => L.pdfPosition g M) p hpdf
  · rw [one_smul, mul_smul, hC]

/-- C46 (partial: scenes with exactly one light). The weight of a sampled light position is the reciprocal of its density. Missing: see the negation. -/
theorem C46_path_position_light_partial (W : World) (hb : W.Built) (ho : W.OneWay) (h1 : W.st.lights.length = 1) (hL : W.AllLights PosEst) (u : RaySampleU) (hu : u.Valid) (hl : W.HasLight) :
    ∃ sp wo C, samplePosition W u .LE = .ok sp wo C ∧ sp.kind = .light ∧ Balanced (pdfPosition W sp) (some (V3.all 1)) C := by
  obtain ⟨sp, wo, C, p, a, b, c, d, e⟩ := position_light W hb ho hl hL u hu
  refine ⟨sp, wo, C, a, b, p, _, c, rfl, d, ?_⟩
  rw [e, h1]; norm_num

/-- C46 fails for light positions in every scene with more than one light: the weight misses the selection probability, so weight · density is 1/n. -/
theorem C46_negation_path_position (W : World) (hb : W.Built) (ho : W.OneWay) (h2 : 2 ≤ W.st.lights.length) (hL : W.AllLights PosEst) (u : RaySampleU) (hu : u.Valid) (hl : W.HasLight) :
    ∃ sp wo C p, samplePosition W u .LE = .ok sp wo C ∧ pdfPosition W sp = some p ∧ 0 < p ∧ p • C = (1 / (W.st.lights.length : ℝ)) • V3.all 1 ∧ ¬ Balanced (pdfPosition W sp) (some (V3.all 1)) C := by
  obtain ⟨sp, wo, C, p, a, b, c, d, e⟩ := position_light W hb ho hl hL u hu
  refine ⟨sp, wo, C, p, a, c, d, e, ?_⟩
  rintro ⟨p', v, hp', hv, _, he⟩
  rw [c] at hp'
  cases hp'
  cases hv
  rw [e] at he
  have := congrArg V3.x he
  simp only [V3.smul_x, V3.all, mul_one] at this
  have hn : (2 : ℝ) ≤ W.st.lights.length := by exact_mod_cast h2
  rw [div_eq_one_iff_eq (by positivity)] at this
  linarith

/-! ### Components and directions -/

/-- C46. Component selection: on surfaces that of the material, elsewhere component 0 with probability 1; the weight is the reciprocal of the reported probability. -/
theorem C46_path_component (W : World) (sp : SI) (wi : V3 ℝ) (u : ℝ) (h0 : 0 ≤ u) (h1 : u < 1)
    (hm : sp.kind = .surface → ∃ m, W.materialAt sp.primitive = some m ∧ SelectsAt m sp.geom wi) :
    ∃ comp w p, sampleComponent W u sp wi = some (comp, w) ∧ pdfComponent W sp wi comp = some p ∧ 0 < p ∧ w * p = 1 := by
  cases hk : sp.kind with
  | surface =>
    obtain ⟨m, hm, hs⟩ := hm hk
    obtain ⟨comp, w, p, a, b, c, d⟩ := hs u h0 h1
    exact ⟨comp, w, p, by simp only [sampleComponent, hk, hm, Option.bind_some, a], by simp only [pdfComponent, hk, hm, Option.bind_some, b], c, d⟩
  | camera => exact ⟨0, 1, 1, by simp only [sampleComponent, hk], by simp only [pdfComponent, hk], one_pos, one_mul _⟩
  | light => exact ⟨0, 1, 1, by simp only [sampleComponent, hk], by simp only [pdfComponent, hk], one_pos, one_mul _⟩
  | medium => exact ⟨0, 1, 1, by simp only [sampleComponent, hk], by simp only [pdfComponent, hk], one_pos, one_mul _⟩

/-- What is needed of the scene element at a vertex for direction sampling. -/
def Sampler (W : World) (sp : SI) (wi : V3 ℝ) (comp : Nat) : Prop :=
  match sp.kind with
  | .camera => ∃ c, W.cameraAt sp.primitive = some c ∧ c.Proper
  | .light => ∃ L, W.lightAt sp.primitive = some L ∧ DirEst L sp.geom
  | .medium => (∃ ph, W.phaseAt sp.primitive = some ph ∧ PhaseEst ph) ∧ V3.dot wi wi = 1
  | .surface => ∃ m, W.materialAt sp.primitive = some m ∧ EstimatesAt m comp sp.geom wi

/-- C46. Direction sampling at any vertex (surface, medium, light or camera): the outcome is defined, and if a direction is returned it is a unit vector and
    weight · density = contribution; on surfaces both the weight and the contribution carry the shading normal correction. -/
theorem C46_path_direction (W : World) (u : DirU) (hu : u.Valid) (sp : SI) (wi : V3 ℝ) (comp : Nat) (dir : TransDir) (h : Sampler W sp wi comp) :
    sampleDirection W u sp wi comp dir ≠ .undef ∧
    ∀ wo C, sampleDirection W u sp wi comp dir = .ok wo C → V3.dot wo wo = 1 ∧ Balanced (pdfDirection W sp wi wo comp false) (evalContrbDirection W sp wi wo comp dir false) C := by
  have hur : (toRayU u).Valid := ⟨⟨le_refl _, one_pos⟩, ⟨le_refl _, one_pos⟩, ⟨le_refl _, one_pos⟩, hu.1, hu.2.1⟩
  cases hk : sp.kind with
  | camera =>
    simp only [Sampler, hk] at h
    obtain ⟨c, hc, hp⟩ := h
    obtain ⟨d, p, e, hd, hpd, hp0, he⟩ := C46_camera_ray c hp W.junk (toRayU u) hur
    have e' : primaryRay c u.ud0 u.ud1 = some d := by
      unfold camSampleRay at e
      cases hx : primaryRay c (toRayU u).ud0 (toRayU u).ud1 with
      | none => rw [hx] at e; cases e
      | some d' => rw [hx] at e; cases e; exact hx
    have key : sampleDirection W u sp wi comp dir = .ok d (V3.all 1) := by simp only [sampleDirection, hk, hc, e']
    rw [key]
    refine ⟨by simp, fun wo C hx => ?_⟩
    cases hx
    exact ⟨hd, p, _, by simp only [pdfDirection, hk, hc, Option.bind_some, hpd], by simp only [evalContrbDirection, hk, hc]; exact he, hp0, rfl⟩
  | light =>
    simp only [Sampler, hk] at h
    obtain ⟨L, hL, hp⟩ := h
    obtain ⟨wo, C, p, e, hw, hpd, hp0, he⟩ := hp (toRayU u) hur
    have key : sampleDirection W u sp wi comp dir = .ok wo C := by simp only [sampleDirection, hk, hL, e]
    rw [key]
    refine ⟨by simp, fun wo C hx => ?_⟩
    cases hx
    exact ⟨hw, p, _, by simp only [pdfDirection, hk, hL, Option.bind_some, hpd], by simp only [evalContrbDirection, hk, hL], hp0, he⟩
  | medium =>
    simp only [Sampler, hk] at h
    obtain ⟨⟨ph, hph, hp⟩, hwi⟩ := h
    obtain ⟨wo, C, p, f, e, hw, hpd, hf, hp0, he⟩ := hp u.ud0 u.ud1 wi hu.1.1 hu.1.2 hu.2.1.1 hu.2.1.2 hwi
    have key : sampleDirection W u sp wi comp dir = .ok wo C := by simp only [sampleDirection, hk, hph, e]
    rw [key]
    refine ⟨by simp, fun wo C hx => ?_⟩
    cases hx
    exact ⟨hw, p, f, by simp only [pdfDirection, hk, hph, Option.bind_some, hpd], by simp only [evalContrbDirection, hk, hph, Option.bind_some, hf], hp0, he⟩
  | surface =>
    simp only [Sampler, hk] at h
    obtain ⟨m, hm, hp⟩ := h
    have := hp u dir hu
    cases e : m.sampleDirection u sp.geom wi comp dir with
    | fail =>
      have key : sampleDirection W u sp wi comp dir = .fail := by simp only [sampleDirection, hk, hm, e]
      rw [key]
      exact ⟨by simp, fun wo C hx => by cases hx⟩
    | undef => rw [e] at this; exact this.elim
    | ok wo C =>
      rw [e] at this
      obtain ⟨hw, p, f, hpd, hf, hp0, he⟩ := this
      have key : sampleDirection W u sp wi comp dir = .ok wo (shadingNormalCorrection sp.geom wi wo dir • C) := by simp only [sampleDirection, hk, hm, e]
      rw [key]
      refine ⟨by simp, fun wo' C' hx => ?_⟩
      cases hx
      refine ⟨hw, p, shadingNormalCorrection sp.geom wi wo dir • f, by simp only [pdfDirection, hk, hm, Option.bind_some, hpd], ?_, hp0, ?_⟩
      · simp only [evalContrbDirection, hk, hm, Option.bind_some, hf, Option.map_some]
      · rw [smul_comm, he]

/-! ### Instanced lights -/

/-- C46 fails for instanced area lights whose instances have different volume scale: the density is evaluated with the transform of another instance.
    Stated for any scene whose table lists the light node under index i with transform M, while the node maps to index j with transform M'. -/
theorem C46_negation_instanced (W : World) (sgn : V3 ℝ → Bool) (junk Ke : V3 ℝ) (ts : List Tri) (hA : 0 < (ts.map triArea).sum) (hKe : Ke ≠ 0)
    (i j : ℕ) (M M' : Aff ℝ) (n : Int) (hi : Scene.lightPrimitiveIndexAt W.st i = some (M, n)) (hj : Scene.lightPrimitiveIndexAt W.st j = some (M', n)) (hm : Scene.lightIndexAt W.st n = some j)
    (hL : W.lightAt n = some (area sgn junk Ke ts)) (hM : M.det ≠ 0) (hM' : M'.det ≠ 0) (hne : |M.det| ≠ |M'.det|) (u : RaySampleU) (hu : u.Valid)
    (hsel : (Scene.sampleLightSelection W.st.lights.length u.upc0).1 = (i : Int)) (hn : 0 < W.st.lights.length) :
    ∃ sp wo C p v, samplePrimaryRay W u .LE = .ok sp wo C ∧ pdfPrimaryRay W sp wo false = some p ∧ (∀ wi comp dir, evalContrbDirection W sp wi wo comp dir false = some v) ∧ p • C ≠ v := by
  obtain ⟨_, _, _, d, _⟩ := Scene.C42_uniform W.st.lights.length hn u.upc0 hu.1.1 hu.1.2
  have hnp : (0 : ℝ) < W.st.lights.length := by exact_mod_cast hn
  obtain ⟨_, _, _, har⟩ := C46_area sgn junk Ke ts M hA hM
  obtain ⟨hray, _⟩ := C46_area sgn junk Ke ts M hA hM
  obtain ⟨g, wo, C, e, _, hev, _⟩ := har u.toLight hu.2
  obtain ⟨g', wo', C', p, e', _, hp, hp0, hC⟩ := hray u.toLight hu.2
  rw [e] at e'
  cases e'
  obtain ⟨pA, hpA, hpA0, hpA1⟩ := transformedInvA_pos ts M hA hM
  obtain ⟨pA', hpA', hpA0', hpA1'⟩ := transformedInvA_pos ts M' hA hM'
  have hee : Scene.sampleLightSelection W.st.lights.length u.upc0 = ((i : Int), some (1 / (W.st.lights.length : ℝ))) := by
    refine Prod.ext hsel ?_
    rw [(d 0).1, (d 0).2]
  -- the density under M' is that under M times pA' / pA
  have hp' : (area sgn junk Ke ts).pdfRay g wo M' false = some (p * (pA' / pA)) := by
    simp only [area, hpA, hpA'] at hp ⊢
    simp only [Option.map_some, Option.some.injEq] at hp ⊢
    rw [← hp]; field_simp
  refine ⟨⟨.light, n, g⟩, wo, (W.st.lights.length : ℝ) • C, 1 / (W.st.lights.length : ℝ) * (p * (pA' / pA)), Ke, ?_, ?_, fun wi comp dir => ?_, ?_⟩
  · simp only [samplePrimaryRay, sampleFromLight, hee, hi, hL, e, wrap, one_div, inv_inv, if_true]
  · simp only [pdfPrimaryRay, pdfOnLight, hm, hj, (d (j : Int)).2, hL, hp', Option.bind_eq_bind, Option.bind_some, Option.pure_def]
  · simp only [evalContrbDirection, hL, hev]
  · rw [smul_cancel _ _ hnp.ne', mul_comm, mul_smul, hC, hev]
    intro hk
    have h1 : (pA' / pA - 1) • Ke = 0 := by rw [sub_smul, one_smul, hk, sub_self]
    rcases smul_eq_zero.mp h1 with h | h
    · have : pA' = pA := by rw [sub_eq_zero, div_eq_one_iff_eq hpA0.ne'] at h; exact h
      rw [hpA1, hpA1', div_eq_div_iff (by positivity) (by positivity)] at this
      apply hne
      have := mul_left_cancel₀ hA.ne' (by linarith : (ts.map triArea).sum * |M.det| = (ts.map triArea).sum * |M'.det|)
      exact this
    · exact hKe h

/-! ### Distances and transmittance -/

/-- C58. Distance sampling along a ray of the scene with a homogeneous medium: a medium interaction lies inside the medium, strictly before the hit surface (or Inf), carrying the albedo;
    otherwise the result is the hit surface with weight 1, or nothing if nothing was hit. Missing: rays running inside a face plane of the bound (C58_negation_graze). -/
theorem C58_path_distance_partial (W : World) (n : Int) (hn : W.st.medium = some n) (density : ℝ) (albedo : V3 ℝ) (b : Bound.Box ℝ) (nz : Bool × Bool × Bool) (u : ℝ) (h0 : 0 ≤ u) (h1 : u < 1)
    (hd : 0 < density) (sp : SI) (wo : V3 ℝ) (hit : Option SI) (hg : Bound.NoGraze b ⟨sp.geom.p, wo, nz⟩) :
    let r := sampleDistance W (fun tmin tmax => homogeneousDistance density albedo b ⟨sp.geom.p, wo, nz⟩ tmin tmax u) hit sp
    (∃ t geom, r = .ok ⟨.medium, n, geom⟩ albedo ∧ geom.p = sp.geom.p + t • wo ∧ 0 ≤ t ∧ t ≤ hitDistance sp hit ∧ Bound.In geom.p b) ∨
    (hit = none ∧ r = .fail) ∨ ∃ h, hit = some h ∧ r = .ok h (V3.all 1) := by
  intro r
  rcases C58_distance_partial density albedo b ⟨sp.geom.p, wo, nz⟩ 0 (hitDistance sp hit) u hd h0 h1 hg with ⟨e, _⟩ | ⟨_, ⟨_, t, ht, e, _⟩ | ⟨_, p, e⟩⟩
  · right
    cases hit with
    | none => exact .inl ⟨rfl, by simp only [r, sampleDistance, hn, e]⟩
    | some h => exact .inr ⟨h, rfl, by simp only [r, sampleDistance, hn, e]⟩
  · refine .inl ⟨t, makeDegenerated (sp.geom.p + t • wo) W.junk, ?_, rfl, ht.1.1, ht.1.2, ht.2⟩
    simp only [r, sampleDistance, hn, e]
  · right
    cases hit with
    | none => exact .inl ⟨rfl, by simp only [r, sampleDistance, hn, e]⟩
    | some h => exact .inr ⟨h, rfl, by simp only [r, sampleDistance, hn, e]⟩

/-- C58. Transmittance between two points: 0 if they do not see each other, 1 without medium, else exp(-density · length of the segment inside the medium). Missing: rays running inside a face plane of the bound (C58_negation_graze). -/
theorem C58_path_transmittance_partial (W : World) (density : ℝ) (hd : 0 ≤ density) (b : Bound.Box ℝ) (nz : Bool × Bool × Bool) (sp1 sp2 : SI) (vis : Bool) (h1 : sp1.geom.infinite = false) (h2 : sp2.geom.infinite = false)
    (hne : sp1.geom.p ≠ sp2.geom.p) (hg : ∀ (wo : V3 ℝ) (k : ℝ), sp2.geom.p - sp1.geom.p = k • wo → Bound.NoGraze b ⟨sp1.geom.p, wo, nz⟩) :
    let r := evalTransmittance W vis (fun wo dist => homogeneousTransmittance density b ⟨sp1.geom.p, wo, nz⟩ 0 dist) sp1 sp2
    (vis = false → r = some (V3.all 0)) ∧ (vis = true → W.st.medium = none → r = some (V3.all 1)) ∧
    (vis = true → W.st.medium.isSome → ∃ wo dist, V3.dot wo wo = 1 ∧ 0 < dist ∧ sp1.geom.p + dist • wo = sp2.geom.p ∧
      r = some (V3.all (Real.exp (-density * depth b ⟨sp1.geom.p, wo, nz⟩ 0 dist)))) := by
  intro r
  refine ⟨fun h => by simp [r, evalTransmittance, h], fun h hm => by simp [r, evalTransmittance, h, hm], fun h hm => ?_⟩
  obtain ⟨n, hn⟩ := Option.isSome_iff_exists.mp hm
  obtain ⟨wo, hw⟩ := normalize_of_ne (sub_ne_zero.mpr (Ne.symm hne))
  obtain ⟨hw1, k, hk, hkw⟩ := normalize_unit hw
  have hdist : Real.sqrt (V3.dot (sp1.geom.p - sp2.geom.p) (sp1.geom.p - sp2.geom.p)) = k := by
    rw [dot_sub_swap, hkw]
    simp only [V3.dot_smul_left, V3.dot_smul_right, hw1, mul_one]
    exact Real.sqrt_mul_self hk.le
  obtain ⟨T, e, _, _, hT, _⟩ := C58_transmittance_partial density b ⟨sp1.geom.p, wo, nz⟩ 0 k hd (hg wo k hkw)
  refine ⟨wo, k, hw1, hk, by rw [← hkw]; abel, ?_⟩
  simp only [r, evalTransmittance, h, Bool.not_true, Bool.false_eq_true, if_false, hn, h1, h2, hw, Option.bind_some, hdist]
  rw [e, hT]

/-- Without a medium in the scene, distance sampling does not return (the lookup of the medium node throws). -/
theorem C58_remark_no_medium (W : World) (hn : W.st.medium = none) (m : ℝ → ℝ → DistRes) (hit : Option SI) (sp : SI) : sampleDistance W m hit sp = .undef := by
  simp only [sampleDistance, hn]

/-! ### Examples -/

theorem follows_det {nodes : List (Scene.Node (Aff ℝ))} {i : Int} {p : List ℕ} {j j' : Int} {ts ts' : List (Aff ℝ)} (h : Scene.Follows nodes i p j ts) (h' : Scene.Follows nodes i p j' ts') : j = j' := by
  induction h generalizing ts' with
  | nil i n hn => cases h'; rfl
  | cons i idx ch b tr k c p j ts hn hk hf ih =>
    cases h' with
    | cons _ idx' ch' b' tr' _ c' _ _ ts'' hn' hk' hf' =>
      rw [hn] at hn'
      cases hn'
      rw [hk] at hk'
      cases hk'
      exact ih hf'

theorem oneWay_of_nodup (nodes : List (Scene.Node (Aff ℝ))) (fuel : ℕ) (out : List (Int × Aff ℝ)) (h : Scene.traverse nodes fuel = .done out) (hnd : (out.map (·.1)).Nodup) :
    ∀ p q j T T', Scene.LightPath nodes p j T → Scene.LightPath nodes q j T' → p = q := by
  obtain ⟨ps, _, hmem, hf⟩ := Scene.C40_every_path_once nodes fuel out h
  intro p q j T T' hp hq
  have find : ∀ p T, Scene.LightPath nodes p j T → ∃ a, ∃ (ha : a < ps.length) (ho : a < out.length), ps[a] = p ∧ out[a].1 = j := by
    rintro p T ⟨pr, ts, hfo, _⟩
    obtain ⟨a, ha, e⟩ := List.mem_iff_getElem.mp ((hmem p).mpr ⟨j, ts, hfo⟩)
    have ho : a < out.length := by rw [← hf.length_eq]; exact ha
    obtain ⟨ts', h', _⟩ := List.Forall₂.get hf ha ho
    refine ⟨a, ha, ho, e, ?_⟩
    simp only [List.get_eq_getElem, e] at h'
    exact follows_det h' hfo
  obtain ⟨a, ha, hao, ea, ja⟩ := find p T hp
  obtain ⟨b, hb, hbo, eb, jb⟩ := find q T' hq
  have : a = b := by
    have := (List.Nodup.getElem_inj_iff hnd (hi := by simpa using hao) (hj := by simpa using hbo)).mp (by simp [ja, jb])
    exact this
  subst this
  rw [← ea, ← eb]

/-- A scene with two point lights. -/
noncomputable def exOps : List (Scene.Op (Aff ℝ)) :=
  [.createPrimitive ⟨none, none, some 0, none, none⟩, .createPrimitive ⟨none, none, some 1, none, none⟩, .addChild 0 1, .addChild 0 2]
noncomputable def exWorld : World where
  st := Scene.buildLights (Scene.run (fun _ => false) Scene.reset exOps) [(0, 1), (1, 1), (2, 1)]
  light i := point (V3.all 1) (V3.all i) 0
  material _ := mirror
  phase _ := isotropic
  camera _ := exCam
  junk := 0
theorem exTraverse : Scene.traverse (Scene.run (fun _ => false) Scene.reset exOps).nodes 3 = .done [(0, (1 : Aff ℝ)), (1, 1), (2, 1)] := rfl

/-- Non-vacuity of the hypotheses, for a scene with two lights. -/
example : exWorld.Built ∧ exWorld.OneWay ∧ exWorld.HasLight ∧ exWorld.st.lights.length = 2 ∧ exWorld.AllLights RayEst ∧ exWorld.AllLights PosEst ∧
    ∀ sp : SI, sp.geom.infinite = false → sp.geom.p = ⟨1, 2, 3⟩ → exWorld.AllLights (fun L M => ∀ us : RayU, us.Valid → DirectEst L sp.geom M (L.sampleDirect us sp.geom M)) := by
  have pt : ∀ j L, exWorld.lightAt j = some L → ∃ i : ℕ, L = point (V3.all 1) (V3.all i) 0 := by
    intro j L h
    simp only [World.lightAt, Option.bind_eq_some_iff, Option.map_eq_some_iff] at h
    obtain ⟨pr, _, i, _, e⟩ := h
    exact ⟨i, e.symm⟩
  refine ⟨⟨fun _ => false, exOps, 3, [(0, 1), (1, 1), (2, 1)], ?_, exTraverse, rfl⟩, oneWay_of_nodup _ 3 _ exTraverse (by decide), ?_, rfl, ?_, ?_, ?_⟩
  · intro op hop
    simp only [exOps, List.mem_cons, List.not_mem_nil, or_false] at hop
    rcases hop with rfl | rfl | rfl | rfl <;> trivial
  · exact ⟨[0], 1, 1, ⟨none, none, some 0, none, none⟩, [], .cons 0 0 [1, 2] false none 0 1 [] 1 [] rfl rfl (.nil 1 _ rfl), rfl, rfl, rfl⟩
  · intro p j T L _ h
    obtain ⟨i, rfl⟩ := pt j L h
    exact (C46_point (V3.all 1) (V3.all i) 0 T).1
  · intro p j T L _ h
    obtain ⟨i, rfl⟩ := pt j L h
    exact (C46_point (V3.all 1) (V3.all i) 0 T).2.1
  · intro sp hf hp q j T L _ h us _
    obtain ⟨i, rfl⟩ := pt j L h
    refine ((C46_point (V3.all 1) (V3.all i) 0 T).2.2.2 us sp.geom hf ?_).1
    rw [hp]
    intro e
    have h1 := congrArg V3.x e
    have h2 := congrArg V3.y e
    simp only [V3.all] at h1 h2
    linarith

/-- An instanced area light: the same node under a unit and a doubling transform. -/
noncomputable def exInstOps : List (Scene.Op (Aff ℝ)) :=
  [.createGroup 1, .createGroup (scaleBy 2), .createPrimitive ⟨some 0, some 0, some 0, none, none⟩, .addChild 1 3, .addChild 2 3, .addChild 0 1, .addChild 0 2]
noncomputable def exInst : World where
  st := Scene.buildLights (Scene.run (fun _ => false) Scene.reset exInstOps) [(0, 1), (1, 1), (3, 1 * 1), (2, 1), (3, 1 * scaleBy 2)]
  light _ := area (fun _ => false) 0 (V3.all 1) exSquare
  material _ := mirror
  phase _ := isotropic
  camera _ := exCam
  junk := 0
theorem exInstTraverse : Scene.traverse (Scene.run (fun _ => false) Scene.reset exInstOps).nodes 4 = .done [(0, (1 : Aff ℝ)), (1, 1), (3, 1 * 1), (2, 1), (3, 1 * scaleBy 2)] := rfl

/-- The instanced scene meets the hypotheses of the negation. -/
example : exInst.Built ∧ ∃ u : RaySampleU, u.Valid ∧ ∃ sp wo C p v, samplePrimaryRay exInst u .LE = .ok sp wo C ∧ pdfPrimaryRay exInst sp wo false = some p ∧
    (∀ wi comp dir, evalContrbDirection exInst sp wi wo comp dir false = some v) ∧ p • C ≠ v := by
  refine ⟨⟨fun _ => false, exInstOps, 4, _, ?_, exInstTraverse, rfl⟩, ⟨1/2, 1/2, 0, 1/2, 1/2, 1/2⟩, ?_, ?_⟩
  · intro op hop
    simp only [exInstOps, List.mem_cons, List.not_mem_nil, or_false] at hop
    rcases hop with rfl | rfl | rfl | rfl | rfl | rfl | rfl <;> trivial
  · norm_num [RaySampleU.Valid, RaySampleU.toLight, RayU.Valid]
  · have d1 : (1 * 1 : Aff ℝ).det = 1 := by rw [mul_one, Aff.one_def]; simp [Aff.det, V3.dot, V3.cross]
    have d2 : (1 * scaleBy 2).det = 8 := by rw [one_mul]; norm_num [Aff.det, scaleBy, V3.dot, V3.cross]
    refine C46_negation_instanced exInst (fun _ => false) 0 (V3.all 1) exSquare (by rw [exSquare_area]; norm_num) ?_ 0 1 (1 * 1) (1 * scaleBy 2) 3 rfl rfl rfl rfl (by rw [d1]; norm_num)
      (by rw [d2]; norm_num) (by rw [d1, d2]; norm_num) _ ?_ ?_ (by show 0 < 2; norm_num)
    · intro e; have := congrArg V3.x e; simp [V3.all] at this
    · norm_num [RaySampleU.Valid, RaySampleU.toLight, RayU.Valid]
    · show (Scene.sampleLightSelection 2 (0 : ℝ)).1 = 0
      simp [Scene.sampleLightSelection, Scene.trunc]

end LM.Path
