import Verif.Props.C45_Masks
import Verif.Props.C100_Outdoors
/-
  C45: what the path tracer computes in scenes with lights of all kinds and materials of OBJ models whose masks have values between 0 and 1.
-/
namespace LM.Transport
open MeasureTheory LM LM.Surface LM.Material LM.Light LM.MathF LM.Path LM.Render LM.Solid Set
open scoped ENNReal

variable {W : World} {Q : Query} {n : Int} {cam : Camera} {ps : List Part} {sgn : V3 ℝ → Bool} {junk : V3 ℝ} {sky : Option Int} {node : ℕ → Int} {M : ℕ → Aff ℝ} {Lt : ℕ → Light} {src : ℕ → Source} {m : ℕ → Mat} {skin : Int → Skin}

theorem Masked.alike (hp : Masked W m ps sgn junk skin) (k : ℕ) : Alike (m k) (W.material k) := by
  rcases hp.only k with e | ⟨s, e1, e2⟩
  · rw [e]; exact ⟨rfl, rfl, rfl, rfl, fun _ _ _ _ _ => rfl⟩
  · rw [e1, e2]; exact shown_alike s

theorem Room.repaint (h : Room W Q n cam ps sgn junk) (m : ℕ → Mat) : Room (repaint W m) Q n cam ps sgn junk := { h with camera := h.camera, cameraAt := h.cameraAt }

theorem AnyLights.repaint (hl : AnyLights W ps cam sky node M Lt src) (m : ℕ → Mat) : AnyLights (repaint W m) ps cam sky node M Lt src where
  table := ⟨hl.table.1, hl.table.2, hl.table.3, hl.table.4⟩
  each := hl.each
  only := hl.only
  env := hl.env

theorem masked_regular (h : Room W (indoors Q) n cam ps sgn junk) (hs : Surroundings Q (faces ps) sky) (hp : Masked W m ps sgn junk skin) (hl : AnyLights W ps cam sky node M Lt src) : Regular (repaint W m) Q n cam (partsOf skin) := by
  have h' := h.repaint m
  refine ⟨h'.cameraAt, h'.proper, rfl, fun o d hit hd hi hf => ?_, (hl.repaint m).infinite h' hs⟩
  obtain ⟨_, ⟨e, _⟩ | ⟨_, _, _, hf', _⟩⟩ := hs.cases h' hi
  · obtain ⟨⟨a, ha, hja⟩, hgr⟩ := h'.face e
    have hs := h'.faceted.same o d hit hd e
    have hdn : V3.dot (-d) (-d) = 1 := by simpa [V3.dot] using hd
    have hgn : V3.dot (-d) (vertexAt ps sgn junk hit.primitive hit.geom.p).geom.n ≠ 0 := by
      rw [← hs, V3.dot_comm, V3.dot_neg_right, V3.dot_comm]; exact neg_ne_zero.mpr hgr
    have hk := Skin.shown_ok (hp.sound hit.primitive) hit.geom.p (-d) (h'.on _ _) hdn hgn
    have hon := h'.on hit.primitive hit.geom.p
    have hcomp : partsOf skin hit (-d) = (skin hit.primitive).parts hit.geom (-d) := by
      have hkind : hit.kind = .surface := by rw [hs]; rfl
      simp only [partsOf, hkind]
    rw [← hs] at hk hon
    refine ⟨by rw [hs]; rfl, by rw [hs]; rfl, hon, hgr, (skin hit.primitive).shown, by rw [hja]; exact hp.shown a ha, ?_⟩
    rw [hcomp]; exact hk
  · rw [hf] at hf'; cases hf'

theorem masked_incoming (h : Room W (indoors Q) n cam ps sgn junk) (hs : Surroundings Q (faces ps) sky) (hp : Masked W m ps sgn junk skin) (hl : AnyLights W ps cam sky node M Lt src) (i : Fin 3) (k : ℕ) (sp : SI) :
    Measurable ((optics (repaint W m) Q i (partsOf skin)).incoming k sp) := by
  have h' := h.repaint m
  have hgath : ∀ j, Gathers (vertexAt ps sgn junk j) (skin j).shown fun g wi => (skin j).parts g wi := fun j => Skin.shown_gathers h' (hp.sound j)
  obtain ⟨I, hI, hIe⟩ := AnyLights.lit h' hs (hl.repaint m) (comps := partsOf skin) (m := fun j => (skin j).shown) (C := fun j g wi => (skin j).parts g wi) hp.shown (fun _ _ _ => rfl) hgath i (fun sp wi c => glowing (repaint W m) Q i node (fun _ => .extended) sp wi c univ)
    (fun a ha => (hgath a.prim).glow h' (hp.shown a ha) i fun l _ => ⟨measurable_const, measurable_const, fun x hx => absurd rfl hx⟩) k
  refine (congrArg Measurable (funext fun d => ?_)).mp (hI.comp (measurable_const (a := sp.geom.p) |>.prodMk measurable_id))
  exact (hIe sp d).symm.trans (lit_extended _ k sp d)

/-- C45. What masks do to images, in scenes with lights of all kinds. The path tracer with light sampling, in every scene of separate triangles with any number of area lights, point lights and directional lights, with or without an environment light, where the masks of
    materials of OBJ models have any values from 0 to 1: its expected value on the film is the integral, over the film, of the radiance that arrives along the primary rays by light paths with the given number of vertices in the scene where these surfaces transmit all light,
    except where the mask is 1, and, if primary rays are sampled on the whole film, the images of the point lights and directional lights themselves.
    Missing: the surface should transmit 1 - alpha of the light; the sampled weight of the transparent component is 1 instead (`C45_negation_obj_mask`). -/
theorem C45_masked_lit_partial (h : Room W (indoors Q) n cam ps sgn junk) (hs : Surroundings Q (faces ps) sky) (hp : Masked W m ps sgn junk skin) (hl : AnyLights W ps cam sky node M Lt src) (i : Fin 3)
    (cfg : Cfg) (hmode : cfg.mode ≠ .naive) (dir : ℝ × ℝ → V3 ℝ) (hdir : ∀ q, primaryRay cam q.1 q.2 = some (dir q)) (H : ℝ × ℝ → ℝ≥0∞) (hH : Measurable H) (u : RaySampleU) (uc : ℝ) (rs : ℕ → Rnd) :
    average (cfg.maxVerts - 1) 1 rs (fun rs' => measured i H (ptSample W Q cfg u uc rs')) = ∫⁻ q, H q * radianceLit (repaint W m) Q i (partsOf skin) node src (cfg.maxVerts - 1) (camVertex W n cam) (dir q) ∂uniform2 +
      if cfg.maxVerts - 1 = 0 ∨ cfg.pixel = true then 0 else ∫⁻ d, onFilm W H 1 (0, 0) d ∂glowing W Q i node src (camVertex W n cam) 0 0 := by
  have h' := h.repaint m
  have hl' := hl.repaint m
  have hgath : ∀ j, Gathers (vertexAt ps sgn junk j) (skin j).shown fun g wi => (skin j).parts g wi := fun j => Skin.shown_gathers h' (hp.sound j)
  have hsh : ∀ l < (repaint W m).st.lights.length, Shines (finite Q) (vertexAt ps sgn junk) i (node l) (src l) := fun l hll => (hl'.bulbs h' hs i).shines hll
  have hrad := AnyLights.lit h' hs hl' (comps := partsOf skin) (m := fun j => (skin j).shown) (C := fun j g wi => (skin j).parts g wi) hp.shown (fun _ _ _ => rfl) hgath i (fun sp wi c => glowing (repaint W m) Q i node src sp wi c univ)
    fun a ha => (hgath a.prim).glow h' (hp.shown a ha) i hsh
  simp only [← repaint_sample hp.alike]
  refine C100_scene_partial (masked_regular h hs hp hl) h'.camera hl'.table src i (fun _ _ hv => hl'.litBy h' hs i hv) (fun k sp _ _ => masked_incoming h hs hp hl i k sp) (fun k sp _ _ => ?_) cfg hmode dir hdir H hH u uc rs
  obtain ⟨I, hI, hIe⟩ := hrad k
  refine (congrArg Measurable (funext fun d => ?_)).mp (hI.comp (measurable_const (a := sp.geom.p) |>.prodMk measurable_id))
  exact (hIe sp d).symm

/-- C45. The path tracer without light sampling, in the same scenes: the radiance from the lights with extent, in the scene where these surfaces transmit all light, except where the mask is 1.
    Missing: as for `C45_masked_lit_partial`, and the light of the point lights and directional lights (`C100_negation_naive`). -/
theorem C45_masked_lit_naive_partial (h : Room W (indoors Q) n cam ps sgn junk) (hs : Surroundings Q (faces ps) sky) (hp : Masked W m ps sgn junk skin) (hl : AnyLights W ps cam sky node M Lt src) (i : Fin 3)
    (pixel : Bool) (N : ℕ) (dir : ℝ × ℝ → V3 ℝ) (hdir : ∀ q, primaryRay cam q.1 q.2 = some (dir q)) (H : ℝ × ℝ → ℝ≥0∞) (hH : Measurable H) (u : RaySampleU) (uc : ℝ) (rs : ℕ → Rnd) :
    average (N - 1) 1 rs (fun rs' => measured i H (ptSample W Q ⟨.naive, pixel, N⟩ u uc rs')) = ∫⁻ q, H q * (optics (repaint W m) Q i (partsOf skin)).incoming (N - 1) (camVertex W n cam) (dir q) ∂uniform2 := by
  have hR := masked_regular h hs hp hl
  simp only [← repaint_sample hp.alike]
  exact C82_pt (repaint W m) Q _ (connection (repaint W m) Q) i _ (hR.sound i fun k sp _ _ => masked_incoming h hs hp hl i k sp) ⟨.naive, pixel, N⟩ (fun h => absurd rfl h) n cam (h.repaint m).camera hR.camera hR.proper (.inl ⟨rfl, rfl⟩)
    (by show 0 ∈ partsOf skin _ _; rw [hR.single]; simp) dir hdir H hH u uc rs

/-! ### Concrete scene: that of C100_Outdoors, with the veil -/

theorem exAnyVeiled : Masked (exAny exVeil) exShown exParts (fun _ => false) 0 (exSkin exVeil) where
  material a ha := by
    rcases (by simpa [exParts] using ha : a = ⟨1, 1, glowTri⟩ ∨ a = ⟨2, 1, lampTri⟩ ∨ a = ⟨2, 1, shadeTri⟩) with rfl | rfl | rfl <;> rfl
  shown a ha := by
    rcases (by simpa [exParts] using ha : a = ⟨1, 1, glowTri⟩ ∨ a = ⟨2, 1, lampTri⟩ ∨ a = ⟨2, 1, shadeTri⟩) with rfl | rfl | rfl <;> rfl
  only := exVeiled.only
  sound := exVeiled.sound

/-- A veil, with an area light, under a grey sky, with a bulb and the sun. -/
example (i : Fin 3) (mode : Mode) (hmode : mode ≠ .naive) (N : ℕ) (dir : ℝ × ℝ → V3 ℝ) (hdir : ∀ q, primaryRay exCam q.1 q.2 = some (dir q)) (H : ℝ × ℝ → ℝ≥0∞) (hH : Measurable H) (u : RaySampleU) (uc : ℝ) (rs : ℕ → Rnd) :
    average (N - 1) 1 rs (fun rs' => measured i H (ptSample (exAny exVeil) exDayQ ⟨mode, true, N⟩ u uc rs')) =
      ∫⁻ q, H q * radianceLit (repaint (exAny exVeil) exShown) exDayQ i (partsOf (exSkin exVeil)) exAllNode exAllSrc (N - 1) (camVertex (exAny exVeil) 3 exCam) (dir q) ∂uniform2 :=
  (C45_masked_lit_partial (exAnyRoom _) exAllSky exAnyVeiled (exAnyLights _) i ⟨mode, true, N⟩ hmode dir hdir H hH u uc rs).trans (by rw [if_pos (.inr rfl), add_zero])

/-- Without light sampling. -/
example (i : Fin 3) (px : Bool) (N : ℕ) (dir : ℝ × ℝ → V3 ℝ) (hdir : ∀ q, primaryRay exCam q.1 q.2 = some (dir q)) (H : ℝ × ℝ → ℝ≥0∞) (hH : Measurable H) (u : RaySampleU) (uc : ℝ) (rs : ℕ → Rnd) :
    average (N - 1) 1 rs (fun rs' => measured i H (ptSample (exAny exVeil) exDayQ ⟨.naive, px, N⟩ u uc rs')) =
      ∫⁻ q, H q * (optics (repaint (exAny exVeil) exShown) exDayQ i (partsOf (exSkin exVeil))).incoming (N - 1) (camVertex (exAny exVeil) 3 exCam) (dir q) ∂uniform2 :=
  C45_masked_lit_naive_partial (exAnyRoom _) exAllSky exAnyVeiled (exAnyLights _) i px N dir hdir H hH u uc rs

end LM.Transport
