import Verif.Props.C82_Lamps
import Verif.Props.C82_Example
/-
  C82: scenes lit by an environment map, with the weights the light computes.
-/
namespace LM.Transport
open MeasureTheory LM LM.Surface LM.Material LM.Light LM.MathF LM.Path LM.Render LM.Solid
open scoped ENNReal

/-- The weights that light::env computes are right for maps without negative values whose rows all have a bright pixel, if the right half of the last row is black. -/
theorem envWeights_ok (tex : ℝ → ℝ → V3 ℝ) (lum : ℕ → ℝ) (w h : ℕ) (ht : Measurable fun q : ℝ × ℝ => tex q.1 q.2) (hn : ∀ a b, NonNeg (tex a b)) (hw : 0 < w) (hh : 0 < h) (hlum : ∀ i, 0 ≤ lum i)
    (hlast : ∀ x < w, w ≤ 2 * x → lum ((h - 1) * w + x) = 0) (hrow : ∀ y < h, ∃ x < w, 0 < lum (y * w + x))
    (hblack : ∀ x y : ℕ, x < w → y < h → lum (y * w + x) = 0 → ∀ a b : ℝ, 0 ≤ a → a < 1 → 0 ≤ b → b < 1 → tex ((x + a) / w) ((y + b) / h) = 0) : MapOk tex (envWeights lum w h) w h := by
  have hpi := Real.pi_pos
  have hwp : (0:ℝ) < w := by exact_mod_cast hw
  have hhp : (0:ℝ) < h := by exact_mod_cast hh
  have hlt : ∀ x y, x < w → y < h → y * w + x < w * h := fun x y hx hy => by
    have : (y + 1) * w ≤ h * w := Nat.mul_le_mul_right _ hy
    nlinarith
  have hget : ∀ x y, x < w → y < h → (envWeights lum w h)[y * w + x]? = some (envWeight lum w h (y * w + x)) := fun x y hx hy => by
    simp [envWeights, hlt x y hx hy]
  have hsin : ∀ x y, x < w → y < h → lum (y * w + x) ≠ 0 → 0 < Real.sin (Real.pi * (((y * w + x : ℕ) : ℝ) / w + 1 / 2) / h) := fun x y hx hy hl => by
    have e : ((y * w + x : ℕ) : ℝ) / w = y + (x : ℝ) / w := by push_cast; field_simp
    rw [e]
    have hx1 : (x : ℝ) / w < 1 := by rw [div_lt_one hwp]; exact_mod_cast hx
    have hx0 : 0 ≤ (x : ℝ) / w := by positivity
    have hb : (y : ℝ) + x / w + 1 / 2 < h := by
      by_cases hy' : y + 1 = h
      · have h2 : 2 * x < w := by
          by_contra hc
          apply hl
          have := hlast x hx (by omega)
          rwa [← hy', Nat.add_sub_cancel] at this
        have : (x : ℝ) / w < 1 / 2 := by
          rw [div_lt_iff₀ hwp]
          have : (2 : ℝ) * x < w := by exact_mod_cast h2
          linarith
        have : (y : ℝ) + 1 = h := by exact_mod_cast hy'
        linarith
      · have : (y : ℝ) + 2 ≤ h := by exact_mod_cast (by omega : y + 2 ≤ h)
        linarith
    have hy0 : (0:ℝ) ≤ y := Nat.cast_nonneg y
    apply Real.sin_pos_of_pos_of_lt_pi
    · positivity
    · rw [div_lt_iff₀ hhp]
      nlinarith
  have hpix : ∀ i < w * h, i % w < w ∧ i / w < h ∧ i / w * w + i % w = i := fun i hi =>
    ⟨Nat.mod_lt _ hw, Nat.div_lt_of_lt_mul hi, by rw [mul_comm]; exact Nat.div_add_mod i w⟩
  have hnn : ∀ i < w * h, 0 ≤ envWeight lum w h i := fun i hi => by
    obtain ⟨h1, h2, h3⟩ := hpix i hi
    by_cases hl : lum i = 0
    · simp [envWeight, hl]
    · have := hsin _ _ h1 h2 (by rw [h3]; exact hl)
      rw [h3] at this
      exact mul_nonneg (hlum i) this.le
  have hall : ∀ q ∈ envWeights lum w h, 0 ≤ q := fun q hq => by
    obtain ⟨i, hi, rfl⟩ := List.mem_map.mp hq
    exact hnn i (List.mem_range.mp hi)
  refine ⟨ht, hn, hw, hh, by simp [envWeights], hall, fun y hy => ?_, fun x y hx hy e => ?_⟩
  · obtain ⟨x, hx, hl⟩ := hrow y hy
    have hpos : 0 < envWeight lum w h (y * w + x) := mul_pos hl (hsin x y hx hy hl.ne')
    have hmem : envWeight lum w h (y * w + x) ∈ Dist.rowOf (envWeights lum w h) w y := by
      unfold Dist.rowOf
      refine List.mem_of_getElem? (i := x) ?_
      rw [List.getElem?_take_of_lt hx, List.getElem?_drop]
      exact hget x y hx hy
    exact hpos.trans_le (List.single_le_sum (fun q hq => hall q (List.mem_of_mem_drop (List.mem_of_mem_take hq))) _ hmem)
  · rw [hget x y hx hy] at e
    refine hblack x y hx hy ?_
    by_contra hl
    have h0 : envWeight lum w h (y * w + x) = 0 := Option.some.inj e
    rcases mul_eq_zero.mp h0 with h1 | h1
    · exact hl h1
    · exact (hsin x y hx hy hl).ne' h1

/-- C82. What the path tracer computes in a scene lit by an environment map, in every mode, if every row of the map has a bright pixel and the right half of the last row is black.
    The light itself is not sound for other maps: it gives pixels in the right half of the last row negative weights (C46_negation_env_weights). -/
theorem C82_map {W : World} {Q : Query} {n : Int} {cam : Camera} {comps} (hR : Regular W Q n cam comps) (hcam : W.st.camera = some n) {node : Int} {M : Aff ℝ} {sgn : V3 ℝ → Bool} {junk : V3 ℝ} {tex : ℝ → ℝ → V3 ℝ} {lum : ℕ → ℝ} {w h : ℕ}
    {rot : ℝ} {c : V3 ℝ} {r : ℝ} {d2 : Dist.Dist2 ℝ} (hd : Dist.init Dist.fresh (envWeights lum w h) w h = some d2)
    (hone : W.st.lights.length = 1) (hentry : Scene.lightPrimitiveIndexAt W.st 0 = some (M, node)) (hindex : Scene.lightIndexAt W.st node = some 0) (hlight : W.lightAt node = some (env sgn junk tex d2 rot c r))
    (honly : ∀ o d h, Q.isect o d = some h → (W.lightAt h.primitive).isSome → h.primitive = node) (hsky : ∀ sp wi, Vertex W Q n cam sp wi → SkyAt Q node junk sp)
    (ht : Measurable fun q : ℝ × ℝ => tex q.1 q.2) (hn : ∀ a b, NonNeg (tex a b)) (hw : 0 < w) (hh : 0 < h) (hlum : ∀ i, 0 ≤ lum i)
    (hlast : ∀ x < w, w ≤ 2 * x → lum ((h - 1) * w + x) = 0) (hrow : ∀ y < h, ∃ x < w, 0 < lum (y * w + x))
    (hblack : ∀ x y : ℕ, x < w → y < h → lum (y * w + x) = 0 → ∀ a b : ℝ, 0 ≤ a → a < 1 → 0 ≤ b → b < 1 → tex ((x + a) / w) ((y + b) / h) = 0)
    (i : Fin 3) (hmeas : ∀ k sp wi, Vertex W Q n cam sp wi → Measurable ((optics W Q i comps).incoming k sp)) (cfg : Cfg) (dir : ℝ × ℝ → V3 ℝ)
    (hdir : ∀ q, primaryRay cam q.1 q.2 = some (dir q)) (H : ℝ × ℝ → ℝ≥0∞) (hH : Measurable H) (u : RaySampleU) (uc : ℝ) (rs : ℕ → Rnd) :
    average (cfg.maxVerts - 1) 1 rs (fun rs' => measured i H (ptSample W Q cfg u uc rs')) = ∫⁻ q, H q * (optics W Q i comps).incoming (cfg.maxVerts - 1) (camVertex W n cam) (dir q) ∂uniform2 := by
  have h0 : ∀ j < W.st.lights.length, j = 0 := fun j hj => by rw [hone] at hj; omega
  have hT : LightTable W (fun _ => node) (fun _ => M) (fun _ => env sgn junk tex d2 rot c r) :=
    ⟨by rw [hone]; exact one_pos, fun j hj => by rw [h0 j hj]; exact hentry, fun j hj => by rw [h0 j hj]; exact hindex, fun _ _ => hlight⟩
  exact C82_lamps hR hcam hT (fun sp wi hv j _ => .map sgn junk tex _ w h d2 rot c r (envWeights_ok tex lum w h ht hn hw hh hlum hlast hrow hblack) hd (hsky sp wi hv))
    (fun o d hit hi hs => ⟨0, by rw [hone]; exact one_pos, honly o d hit hi hs⟩) i hmeas cfg dir hdir H hH u uc rs

/-! ### A concrete scene: the floor of `C82_example` under a map of one column and two rows, all of whose pixels are 1 -/

theorem mapDist : ∃ d2, Dist.init Dist.fresh (envWeights (fun _ => 1) 1 2) 1 2 = some d2 := by
  have m := envWeights_ok (fun _ _ => V3.all 1) (fun _ => 1) 1 2 measurable_const (fun _ _ => ⟨zero_le_one, zero_le_one, zero_le_one⟩) one_pos two_pos (fun _ => zero_le_one) (fun x hx hl => by omega) (fun y hy => ⟨0, one_pos, one_pos⟩)
    (fun x y hx hy e => absurd e one_ne_zero)
  obtain ⟨d2, hd, _⟩ := Dist.C29_sample_partial _ 1 2 m.width m.height m.len m.weights m.rows
  exact ⟨d2, hd⟩

noncomputable def exMap : World := { exFloor with light := fun _ => env (fun _ => false) 0 (fun _ _ => V3.all 1) mapDist.choose 0 0 1 }

theorem exMap_light (p : Int) : exMap.lightAt p = (exFloor.lightAt p).map fun _ => env (fun _ => false) 0 (fun _ _ => V3.all 1) mapDist.choose 0 0 1 := by
  show (exFloor.prim p).bind _ = ((exFloor.prim p).bind _).map _
  cases exFloor.prim p with
  | none => rfl
  | some q =>
    show q.light.map _ = (q.light.map _).map _
    cases q.light <;> rfl

theorem exFloor_light (p : Int) : exFloor.lightAt p = (exFloor.lightAt p).map fun _ => envconst (fun _ => false) 0 (V3.all 1) 0 1 := by
  show (exFloor.prim p).bind _ = ((exFloor.prim p).bind _).map _
  cases exFloor.prim p with
  | none => rfl
  | some q =>
    show q.light.map _ = (q.light.map _).map _
    cases q.light <;> rfl

theorem exMap_optics (i : Fin 3) : optics exMap exFloorQ i exComps = optics exFloor exFloorQ i exComps := by
  have h1 : emitted exMap i = emitted exFloor i := by
    funext sp wo
    unfold emitted
    rw [exMap_light, exFloor_light]
    cases exFloor.lightAt sp.primitive <;> rfl
  have h2 : scattered exMap i = scattered exFloor i := by
    funext sp wi c
    have a : isSpecularComponent exMap sp c = isSpecularComponent exFloor sp c := by
      unfold isSpecularComponent
      cases sp.kind <;> try rfl
      rw [exMap_light, exFloor_light]
      cases exFloor.lightAt sp.primitive <;> rfl
    have b : ∀ d e, evalContrbDirection exMap sp wi d c .EL e = evalContrbDirection exFloor sp wi d c .EL e := fun d e => by
      unfold evalContrbDirection
      cases sp.kind <;> try rfl
      rw [exMap_light, exFloor_light]
      cases exFloor.lightAt sp.primitive <;> rfl
    have s : sampleDirection exMap ⟨0, 0, 0⟩ sp wi c .EL = sampleDirection exFloor ⟨0, 0, 0⟩ sp wi c .EL := by
      unfold sampleDirection
      cases sp.kind <;> try rfl
      rw [exMap_light, exFloor_light]
      cases exFloor.lightAt sp.primitive <;> rfl
    unfold scattered
    simp only [a, b, s]
  unfold optics
  rw [h1, h2]

/-- C82, in a concrete scene with an environment map: with paths of at least three vertices every pixel of the image of the floor has the average 1/2 in every channel, in every mode. -/
theorem C82_example_map (i : Fin 3) (mode : Mode) (pixel : Bool) (k : ℕ) (H : ℝ × ℝ → ℝ≥0∞) (hH : Measurable H) (u : RaySampleU) (uc : ℝ) (rs : ℕ → Rnd) :
    average (k + 2) 1 rs (fun rs' => measured i H (ptSample exMap exFloorQ ⟨mode, pixel, k + 3⟩ u uc rs')) = (∫⁻ q, H q ∂uniform2) * (1 / 2) := by
  choose dir hdir using fun q : ℝ × ℝ => (C47_primary exCam exCam_proper q.1 q.2)
  have hz : ∀ q, (dir q).z < 0 := fun q => by
    have := (towards_eye exCam exCam_proper (dir q) q.1 q.2 (hdir q).2.2).1
    simpa [toEye, exCam, V3.dot] using this
  have hone : NonNeg (V3.all (1 : ℝ)) := ⟨zero_le_one, zero_le_one, zero_le_one⟩
  have hR : Regular exMap exFloorQ 3 exCam exComps := ⟨rfl, exCam_proper, rfl, exFloor_regular.surface, exFloor_regular.infinite⟩
  have h := C82_map (W := exMap) (Q := exFloorQ) hR rfl mapDist.choose_spec rfl rfl rfl rfl (fun o d hit hi hs => exFloor_scene.only o d hit hi (by rw [exMap_light, Option.isSome_map] at hs; exact hs)) exFloor_scene.sky measurable_const (fun _ _ => hone) one_pos two_pos (fun _ => zero_le_one)
    (fun x hx hl => by omega) (fun y hy => ⟨0, one_pos, one_pos⟩) (fun x y hx hy e => absurd e one_ne_zero) i (fun k sp wi hv => by rw [exMap_optics]; exact exFloor_measurable i k sp wi hv) ⟨mode, pixel, k + 3⟩ dir (fun q => (hdir q).1) H hH u uc rs
  rw [show (⟨mode, pixel, k + 3⟩ : Cfg).maxVerts - 1 = k + 2 from rfl] at h
  rw [h, exMap_optics]
  have e : ∀ q, (optics exFloor exFloorQ i exComps).incoming (k + 2) (camVertex exMap 3 exCam) (dir q) = 1 / 2 := fun q => by
    have := cam_incoming i (k + 1) (dir q)
    rw [if_pos (hz q), if_neg (by omega)] at this
    exact this
  simp_rw [e]
  rw [lintegral_mul_const _ hH]

end LM.Transport
