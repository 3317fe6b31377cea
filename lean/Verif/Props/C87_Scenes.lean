import Verif.Props.C82_Scenes
import Verif.Props.C87_Example
import Verif.Props.C88_Example
/-
  C87 and C88 in scenes described by their triangles, materials and lights.
-/
namespace LM.Transport
open MeasureTheory LM LM.Surface LM.Material LM.Light LM.MathF LM.Path LM.Render LM.Solid LM.Chain Set
open scoped ENNReal

variable {W : World} {Q : Query} {n : Int} {cam : Camera} {ps : List Part} {sgn : V3 ℝ → Bool} {junk : V3 ℝ} {node : ℕ → Int} {M : ℕ → Aff ℝ} {lsgn : V3 ℝ → Bool} {ljunk : V3 ℝ} {Ke : ℕ → V3 ℝ} {ts : ℕ → List Tri}

theorem Room.paths (h : Room W Q n cam ps sgn junk) {fin : Int → Finish} (hp : Paint W ps sgn junk fin) (hl : Lighting W ps node M lsgn ljunk Ke ts) (hlist : ∀ j L, W.lightAt j = some L → ∃ l < W.st.lights.length, j = node l)
    (hn : ∀ a ∈ ps, a.prim ≠ n) :
    PathScene W Q n cam (faces ps) (vertexAt ps sgn junk) (fun j => (fin j).mat) (fun j => (fin j).comps) (paintF ps sgn junk fin) (paintP ps sgn junk fin) (fun j c _ _ => finC c (fin j)) node M lsgn ljunk Ke ts where
  matte := h.matte hp
  lamps := hl.lamps h.separate
  flat j _ p := rfl
  pdf j _ c hc p wi wo hi ho hw := (Finish.values (hp.sound j) hc p wi wo (h.on j p) hi ho hw).2.2 false
  pdf_measurable j c := (h.measurable hp j c).2
  component j _ c hc p wi hi hw := (Finish.ok (hp.sound j) p wi (h.on j p) hi hw).2.2.1 c hc
  component_measurable j c := measurable_const
  select j _ p wi hi hw u h0 h1 c w e := (Finish.ok (hp.sound j) p wi (h.on j p) hi hw).2.2.2 u h0 h1 c w e
  listed := hlist
  other := by
    intro hm
    obtain ⟨a, ha, e⟩ := prims_faces.mp hm
    exact hn a ha e
  place a b c e ha hb hc := by
    rw [Bool.eq_iff_iff, h.traced.visible _ _ ha hc, h.traced.visible _ _ hb hc, e]
  sight s hs t ht p q _ hq _ h2 := by
    rw [h.traced.visible _ _ rfl rfl, h.traced.sees_iff (fun j p => ⟨rfl, rfl⟩) ht hq h2]
    rfl

/-- C87. In every scene of separate triangles with diffuse and glossy materials, mixtures of them (of either kind), materials of OBJ models, and area lights, bidirectional path tracing (renderer::bdpt) and the renderers that sample whole paths (pt_naive_path, pt_nee_path, lt_nee_path: renderer_bdpt.cpp), with paths
    of 2 to N vertices, all compute the same image as the path tracer. -/
theorem C87_scenes (h : Room W Q n cam ps sgn junk) {fin : Int → Finish} (hp : Paint W ps sgn junk fin) (hl : Lighting W ps node M lsgn ljunk Ke ts) (hlist : ∀ j L, W.lightAt j = some L → ∃ l < W.st.lights.length, j = node l)
    (hn : ∀ a ∈ ps, a.prim ≠ n) (i : Fin 3) (H : ℝ × ℝ → ℝ≥0∞) (hH : Measurable H) (N : ℕ) (hN : 2 ≤ N) (px : Bool) (u : RaySampleU) (uc : ℝ) (rs rsE rsL : ℕ → Rnd) :
    let image := average (N - 1) 1 rs (fun rs' => measured i H (ptSample W Q ⟨.naive, px, N⟩ u uc rs'))
    average N 0 rsE (fun a => average N 0 rsL (fun b => measured i H (bdptSample W Q 2 N a b))) = image ∧
    average N 0 rsE (fun a => measured i H (ptNaivePathSample W Q 2 N a)) = image ∧
    average N 0 rsE (fun a => average 1 0 rsL (fun b => measured i H (ptNeePathSample W Q 2 N a b))) = image ∧
    average 1 0 rsE (fun a => average N 0 rsL (fun b => measured i H (ltNeePathSample W Q 2 N a b))) = image :=
  C87_same_image (h.paths hp hl hlist hn) i (compsAt fin) (fun _ _ _ _ => rfl) rfl h.unitOnly H hH N hN px u uc rs rsE rsL

theorem Room.cacheable (h : Room W Q n cam ps sgn junk) {fin : Int → Finish} (hp : Paint W ps sgn junk fin) (hb : ∀ a ∈ ps, W.cameraAt a.prim = none) :
    Cacheable W (faces ps) (vertexAt ps sgn junk) (fun j => (fin j).mat) (fun j => (fin j).comps) (paintP ps sgn junk fin) where
  reverse j _ c hc p wi wo hi ho _ h0 := ⟨_, (Finish.values (hp.sound j) hc p wo wi (h.on j p) ho hi (finP_side h0)).2.2 false⟩
  blind j hj := by
    obtain ⟨a, ha, rfl⟩ := prims_faces.mp hj
    exact hb a ha

/-- C88. In every such scene, none of whose surfaces is a camera and whose lights are on surfaces of one component, renderer::bdptopt computes the same image as the path tracer.
    Missing: lights on surfaces whose materials have more components, for which it is false (`C88_negation_mixture`). -/
theorem C88_scenes_partial (h : Room W Q n cam ps sgn junk) {fin : Int → Finish} (hp : Paint W ps sgn junk fin) (hl : Lighting W ps node M lsgn ljunk Ke ts) (hlist : ∀ j L, W.lightAt j = some L → ∃ l < W.st.lights.length, j = node l)
    (hn : ∀ a ∈ ps, a.prim ≠ n) (hb : ∀ a ∈ ps, W.cameraAt a.prim = none) (hone : ∀ a ∈ ps, W.lightAt a.prim ≠ none → (fin a.prim).comps.card = 1) (i : Fin 3) (H : ℝ × ℝ → ℝ≥0∞) (hH : Measurable H) (N : ℕ) (hN : 2 ≤ N) (junk0 : ℝ) (junkW : V3 ℝ) (px : Bool) (u : RaySampleU) (uc : ℝ)
    (rs rsE rsL : ℕ → Rnd) :
    average N 0 rsE (fun a => average N 0 rsL (fun b => measured i H (bdptOptSample W Q junk0 junkW 2 N a b))) = average (N - 1) 1 rs (fun rs' => measured i H (ptSample W Q ⟨.naive, px, N⟩ u uc rs')) :=
  C88_same_image_partial (h.paths hp hl hlist hn) (h.cacheable hp hb) (fun j hj hL => by obtain ⟨a, ha, rfl⟩ := prims_faces.mp hj; exact hone a ha hL) i (compsAt fin) (fun _ _ _ _ => rfl) rfl h.unitOnly H hH N hN junk0 junkW px u uc rs rsE rsL

/-! ### The concrete scene of C82_Scenes -/

theorem exParts_mem {a : Part} (ha : a ∈ exParts) : a.prim = 1 ∨ a.prim = 2 := by
  rcases (by simpa [exParts] using ha : a = ⟨1, 1, glowTri⟩ ∨ a = ⟨2, 1, lampTri⟩ ∨ a = ⟨2, 1, shadeTri⟩) with rfl | rfl | rfl
  · exact .inl rfl
  · exact .inr rfl
  · exact .inr rfl

example (i : Fin 3) (H : ℝ × ℝ → ℝ≥0∞) (hH : Measurable H) (N : ℕ) (hN : 2 ≤ N) (junk0 : ℝ) (junkW : V3 ℝ) (px : Bool) (u : RaySampleU) (uc : ℝ) (rs rsE rsL : ℕ → Rnd) :
    average N 0 rsE (fun a => average N 0 rsL (fun b => measured i H (bdptSample exShiny exRoomQ 2 N a b))) = average (N - 1) 1 rs (fun rs' => measured i H (ptSample exShiny exRoomQ ⟨.naive, px, N⟩ u uc rs')) ∧
    average N 0 rsE (fun a => average N 0 rsL (fun b => measured i H (bdptOptSample exShiny exRoomQ junk0 junkW 2 N a b))) = average (N - 1) 1 rs (fun rs' => measured i H (ptSample exShiny exRoomQ ⟨.naive, px, N⟩ u uc rs')) := by
  have hn : ∀ a ∈ exParts, a.prim ≠ 3 := fun a ha => by rcases exParts_mem ha with e | e <;> rw [e] <;> decide
  have hb : ∀ a ∈ exParts, exShiny.cameraAt a.prim = none := fun a ha => by rcases exParts_mem ha with e | e <;> rw [e] <;> rfl
  have hone : ∀ a ∈ exParts, exShiny.lightAt a.prim ≠ none → (exFin a.prim).comps.card = 1 := fun a ha hL => by
    rcases exParts_mem ha with e | e <;> rw [e] at hL ⊢
    · rfl
    · exact absurd rfl hL
  have hlist : ∀ j L, exShiny.lightAt j = some L → ∃ l < exShiny.st.lights.length, j = (fun _ => (1 : Int)) l := fun j L h => ⟨0, one_pos, exGlow_listed j L h⟩
  exact ⟨(C87_scenes exRoom exPaint exLighting hlist hn i H hH N hN px u uc rs rsE rsL).1, C88_scenes_partial exRoom exPaint exLighting hlist hn hb hone i H hH N hN junk0 junkW px u uc rs rsE rsL⟩

/-! ### The same scene, where the triangles beside the lamp have any sound material -/

noncomputable def exFinished (f : Finish) : World := { exGlowing with
  material := fun k => if k = 0 then f.mat else diffuse (fun _ => V3.all (1 / 2)) }

noncomputable def exFinishAt (f : Finish) (j : Int) : Finish := if j = 2 then f else .plain (.diffuse fun _ => V3.all (1 / 2))

theorem exFinishedRoom (f : Finish) : Room (exFinished f) exRoomQ 3 exCam exParts (fun _ => false) 0 :=
  { exRoom with camera := rfl, cameraAt := rfl }

theorem exFinishedPaint {f : Finish} (hf : f.Sound (vertexAt exParts (fun _ => false) 0 2)) : Paint (exFinished f) exParts (fun _ => false) 0 (exFinishAt f) where
  material a ha := by
    rcases (by simpa [exParts] using ha : a = ⟨1, 1, glowTri⟩ ∨ a = ⟨2, 1, lampTri⟩ ∨ a = ⟨2, 1, shadeTri⟩) with rfl | rfl | rfl <;> rfl
  sound j := by
    unfold exFinishAt
    split
    · rename_i h; subst h; exact hf
    · exact ⟨fun _ => half_nonneg, measurable_const⟩

theorem exFinishedLighting (f : Finish) : Lighting (exFinished f) exParts (fun _ => 1) (fun _ => 1) (fun _ => false) 0 (fun _ => V3.all 1) (fun _ => [glowTri]) where
  table := ⟨exGlow_table.1, exGlow_table.2, exGlow_table.3, exGlow_table.4⟩
  size := exGlow_lamps.size
  nonneg := exGlow_lamps.nonneg
  only := exLighting.only
  parts l hl := by simp [exParts]

theorem exFinished_same {f : Finish} (hf : f.Sound (vertexAt exParts (fun _ => false) 0 2)) (i : Fin 3) (H : ℝ × ℝ → ℝ≥0∞) (hH : Measurable H) (N : ℕ) (hN : 2 ≤ N) (junk0 : ℝ) (junkW : V3 ℝ) (px : Bool) (u : RaySampleU) (uc : ℝ) (rs rsE rsL : ℕ → Rnd) :
    averageLight (fun u => ∫⁻ uc, average (N - 2) 2 rs (fun rs' => measured i H (ltSample (exFinished f) exRoomQ N u uc rs')) ∂uniform1) + average 1 1 rs (fun rs' => measured i H (ptSample (exFinished f) exRoomQ ⟨.naive, px, 2⟩ u uc rs')) =
      average (N - 1) 1 rs (fun rs' => measured i H (ptSample (exFinished f) exRoomQ ⟨.naive, px, N⟩ u uc rs')) ∧
    average N 0 rsE (fun a => average N 0 rsL (fun b => measured i H (bdptSample (exFinished f) exRoomQ 2 N a b))) = average (N - 1) 1 rs (fun rs' => measured i H (ptSample (exFinished f) exRoomQ ⟨.naive, px, N⟩ u uc rs')) ∧
    average N 0 rsE (fun a => average N 0 rsL (fun b => measured i H (bdptOptSample (exFinished f) exRoomQ junk0 junkW 2 N a b))) = average (N - 1) 1 rs (fun rs' => measured i H (ptSample (exFinished f) exRoomQ ⟨.naive, px, N⟩ u uc rs')) := by
  have hn : ∀ a ∈ exParts, a.prim ≠ 3 := fun a ha => by rcases exParts_mem ha with e | e <;> rw [e] <;> decide
  have hb : ∀ a ∈ exParts, (exFinished f).cameraAt a.prim = none := fun a ha => by rcases exParts_mem ha with e | e <;> rw [e] <;> rfl
  have hone : ∀ a ∈ exParts, (exFinished f).lightAt a.prim ≠ none → (exFinishAt f a.prim).comps.card = 1 := fun a ha hL => by
    rcases exParts_mem ha with e | e <;> rw [e] at hL ⊢
    · rfl
    · exact absurd rfl hL
  have hlist : ∀ j L, (exFinished f).lightAt j = some L → ∃ l < (exFinished f).st.lights.length, j = (fun _ => (1 : Int)) l := fun j L h => ⟨0, one_pos, exGlow_listed j L h⟩
  exact ⟨C86_scenes_partial (exFinishedRoom f) (exFinishedPaint hf) (exFinishedLighting f) i H hH N hN .naive .naive px px u uc rs,
    (C87_scenes (exFinishedRoom f) (exFinishedPaint hf) (exFinishedLighting f) hlist hn i H hH N hN px u uc rs rsE rsL).1,
    C88_scenes_partial (exFinishedRoom f) (exFinishedPaint hf) (exFinishedLighting f) hlist hn hb hone i H hH N hN junk0 junkW px u uc rs rsE rsL⟩

/-- A marginalized mixture, and the material of an OBJ model. -/
example : (Finish.marg [(.glossy (V3.all (1 / 2)) (1 / 4) (1 / 2), 1 / 3), (.diffuse fun _ => V3.all (1 / 2), 2 / 3)]).Sound (vertexAt exParts (fun _ => false) 0 2) := by
  refine ⟨by simp, fun e he => ?_⟩
  rcases List.mem_cons.mp he with rfl | he
  · refine ⟨by norm_num, by norm_num, by norm_num, half_nonneg, ?_, ?_, ?_⟩ <;> simp [V3.all] <;> norm_num
  · rw [List.mem_singleton.mp he]
    exact ⟨by norm_num, fun _ => half_nonneg, measurable_const⟩

example : (Finish.obj (fun _ => V3.all (1 / 2)) (V3.all (1 / 2)) (1 / 4) (1 / 2)).Sound (vertexAt exParts (fun _ => false) 0 2) := by
  refine ⟨⟨fun _ => half_nonneg, measurable_const⟩, by norm_num, by norm_num, half_nonneg, ?_, ?_, ?_⟩ <;> simp [V3.all] <;> norm_num

end LM.Transport
