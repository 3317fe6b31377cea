import Verif.Props.C88_Image
import Verif.Props.C87_Bidirectional
/-
  C88: renderer::bdptopt and the path tracer.
-/
namespace LM.Transport
open MeasureTheory LM LM.Surface LM.Material LM.Light LM.MathF LM.Path LM.Render LM.Solid LM.Chain Set
open scoped ENNReal

/-- What renderer::bdptopt needs besides: the density of the reverse of a sampled direction is defined, and surfaces carry no camera. -/
structure Cacheable (W : World) (Fs : List (Int × Tri)) (vertex : Int → V3 ℝ → SI) (mat : Int → Mat) (C : Int → Finset ℕ) (P : Int → ℕ → V3 ℝ → V3 ℝ → V3 ℝ → ℝ) : Prop where
  reverse : ∀ j ∈ Fs.map (·.1), ∀ c ∈ C j, ∀ p wi wo, V3.dot wi wi = 1 → V3.dot wo wo = 1 → V3.dot wi (vertex j p).geom.n ≠ 0 → 0 < P j c p wi wo → ∃ q, (mat j).pdfDirection (vertex j p).geom wo wi c false = some q
  blind : ∀ j ∈ Fs.map (·.1), W.cameraAt j = none

variable {W : World} {Q : Query} {n : Int} {cam : Camera} {Fs : List (Int × Tri)} {vertex : Int → V3 ℝ → SI} {mat : Int → Mat} {C : Int → Finset ℕ} {f : Int → ℕ → V3 ℝ → V3 ℝ → V3 ℝ → V3 ℝ}
  {P : Int → ℕ → V3 ℝ → V3 ℝ → V3 ℝ → ℝ} {pc : Int → ℕ → V3 ℝ → V3 ℝ → ℝ} {node : ℕ → Int} {M : ℕ → Aff ℝ} {sgn : V3 ℝ → Bool} {junk : V3 ℝ} {Ke : ℕ → V3 ℝ} {ts : ℕ → List Tri}

namespace PathScene
variable (h : PathScene W Q n cam Fs vertex mat C f P pc node M sgn junk Ke ts)

local notation "S" => siteOf W Q cam Fs vertex C f P pc M ts

include h

theorem back (K : Cacheable W Fs vertex mat C P) (H : ℝ × ℝ → ℝ≥0∞) : (S H).Back W := fun j hj c hc p wi wo a b hg hP => by
  obtain ⟨q, hq⟩ := K.reverse j hj c hc p wi wo a b hg hP
  refine ⟨q, ?_⟩
  show pdfDirection W (vertex j p) wo wi c false = some q
  unfold pdfDirection
  rw [(h.matte.surface j hj p).1]
  dsimp only
  rw [(h.matte.faceted.at_point j p).1, (h.matte.surface j hj p).2.2, Option.bind_some]
  exact hq

/-- A primitive that emits light has a light. -/
theorem lit (H : ℝ × ℝ → ℝ≥0∞) {j : Int} (he : ∃ p d, (S H).Le j p d ≠ 0) : W.lightAt j ≠ none := by
  obtain ⟨p, d, hd⟩ := he
  intro hL
  apply hd
  show lampEval W vertex j p d = 0
  unfold lampEval
  rw [hL]

/-- The image of renderer::bdptopt, if the materials of the lights have k + 1 components. -/
theorem cached (K : Cacheable W Fs vertex mat C P) (i : Fin 3) {comps : SI → V3 ℝ → Finset ℕ} (hcomp : ∀ j ∈ Fs.map (·.1), ∀ p wi, comps (vertex j p) wi = C j) {dir : ℝ × ℝ → V3 ℝ} (hdir : ∀ q, primaryRay cam q.1 q.2 = some (dir q))
    {H : ℝ × ℝ → ℝ≥0∞} (hH : Measurable H) {k : ℕ} (hk : ∀ j ∈ Fs.map (·.1), W.lightAt j ≠ none → (C j).card = k + 1) {min N : ℕ} (hmin : 2 ≤ min) (hN : min ≤ N) (junk0 : ℝ) (junkW : V3 ℝ) (rsE rsL : ℕ → Rnd) :
    average N 0 rsE (fun a => average N 0 rsL (fun b => measured i H (bdptOptSample W Q junk0 junkW min N a b))) + ∫⁻ q, H q * (optics W Q i comps).incoming (min - 2) (camVertex W n cam) (dir q) ∂uniform2 =
      ∫⁻ q, H q * (optics W Q i comps).incoming (N - 1) (camVertex W n cam) (dir q) ∂uniform2 + ∑ j ∈ Finset.range (N - 1), if (min : ℤ) ≤ (j : ℤ) + 2 then k * (S H).part (S H).bal i 0 j else 0 := by
  have hb := Site.Works.bdptopt (h.proper H) (h.sound hH) (h.works H) (h.seer H) (h.lamped H) (h.told H) (h.stage H) (h.back K H) K.blind i (min := (min : ℤ)) (by exact_mod_cast hmin) (N := N) (by omega) junk0 junkW rsE rsL
  have e : ∀ j : ℕ, (if (min : ℤ) ≤ (j : ℤ) + 2 then (S H).lone i j + ∑ s ∈ Finset.range (j + 1), (S H).part (S H).bal i (s + 1) j else 0) =
      (if (min : ℤ) ≤ (j : ℤ) + 2 then (S H).through i j else 0) + if (min : ℤ) ≤ (j : ℤ) + 2 then k * (S H).part (S H).bal i 0 j else 0 := fun j => by
    by_cases hj : (min : ℤ) ≤ (j : ℤ) + 2
    · rw [if_pos hj, if_pos hj, if_pos hj]
      exact (h.proper H).lone_sum (h.sound hH) i (fun l hl he => hk l hl (h.lit H he)) j
    · rw [if_neg hj, if_neg hj, if_neg hj, add_zero]
  simp_rw [e] at hb
  rw [Finset.sum_add_distrib] at hb
  rw [← h.image_limits hH i hcomp hdir hN, add_right_comm]
  exact congrArg (· + _) hb

/-- Light that the camera sees directly is found by the strategy without light subpath. -/
theorem direct_pos {H : ℝ × ℝ → ℝ≥0∞} (hH : Measurable H) (i : Fin 3) (hd : (S H).through i 0 ≠ 0) : (S H).part (S H).bal i 0 0 ≠ 0 := by
  intro h0
  apply hd
  have hS := h.sound hH
  have V := h.proper H
  unfold Site.part at h0
  unfold Site.through
  have hg : Measurable fun q : List Node × Spot => (S H).share (S H).bal q.1 q.2 0 * (S H).whole i q.1 q.2 := (hS.m_share hS.m_bal 0 measurable_fst measurable_snd).mul (hS.m_whole i measurable_fst measurable_snd)
  have hw : Measurable fun q : List Node × Spot => (S H).whole i q.1 q.2 := hS.m_whole i measurable_fst measurable_snd
  have hg' : Measurable fun z : Spot => (S H).share (S H).bal [] z 0 * (S H).whole i [] z := hg.comp (measurable_prodMk_left (x := ([] : List Node)))
  have hw' : Measurable fun z : Spot => (S H).whole i [] z := hw.comp (measurable_prodMk_left (x := ([] : List Node)))
  rw [lintegral_nil _ _ hg.lintegral_prod_right'] at h0
  have h0' := (lintegral_eq_zero_iff hg').mp h0
  rw [lintegral_nil _ _ hw.lintegral_prod_right']
  refine (lintegral_eq_zero_iff hw').mpr ?_
  have hf : ∀ᵐ z ∂surf (S H).Fs, z.1 ∈ (S H).Fs.map (·.1) := Site.face_ae
  filter_upwards [h0', hf] with z hz hzF
  by_contra hne
  have hne' : (S H).whole i [] z ≠ 0 := hne
  have hpos := V.eye_pos (m := []) (fun y hy => absurd hy (by simp)) hne'
  have hdens : 0 < (S H).dens [] z 0 := mul_pos hpos.1 hpos.2
  have hb := V.bal_pos (m := []) (fun y hy => absurd hy (by simp)) hzF (Site.whole_ne hne').2 (s := 0) (by simp) hdens
  have : (S H).share (S H).bal [] z 0 * (S H).whole i [] z = 0 := hz
  unfold Site.share at this
  rw [if_pos hdens] at this
  rcases mul_eq_zero.mp this with c | c
  · exact absurd (ENNReal.ofReal_eq_zero.mp c) (not_le.mpr hb)
  · exact hne' c

end PathScene

/-- C88. With the same random numbers, renderer::bdptopt samples the vertices that renderer::bdpt samples, whatever is in the uninitialised members of its cache. -/
theorem C88_subpaths (h : PathScene W Q n cam Fs vertex mat C f P pc node M sgn junk Ke ts) (K : Cacheable W Fs vertex mat C P) (N : ℕ) (r : ℕ → Rnd) (hr : ∀ m < N, (r m).Valid) (junk0 : ℝ) (junkW : V3 ℝ) :
    (sampleSubpathOpt W Q junk0 junkW N .EL r).map (List.map CV.vert) = sampleSubpath W Q N .EL r ∧ (sampleSubpathOpt W Q junk0 junkW N .LE r).map (List.map CV.vert) = sampleSubpath W Q N .LE r := by
  have hS := h.sound (H := fun _ => 0) measurable_const
  have key : ∀ {way : TransDir} {k : Kind} {a : Option (List Vert)} {b : Option (List CV)}, Same W way k a b → b.map (List.map CV.vert) = a := fun hs => by
    rcases hs with ⟨rfl, rfl⟩ | ⟨B, rfl, rfl, _⟩ <;> rfl
  exact ⟨key ((h.works _).driveEye hS (h.told _) (h.back K _) hr).subpath, key ((h.works _).driveLight hS (h.lamped _) (h.told _) (h.back K _) hr).subpath⟩

/-- C88. What renderer::bdptopt computes in scenes in which the materials of the lights have one component: the average over all random numbers of both subpaths of what one sample adds to the film, weighted with any function H of the position
    on the film, is the integral over the film of H times the radiance arriving at the camera along the primary ray by paths with at least `min` and at most `N` vertices.
    Missing: lights on surfaces whose materials have more components, for which it is false (`C88_negation_mixture`). -/
theorem C88_bdptopt_partial (h : PathScene W Q n cam Fs vertex mat C f P pc node M sgn junk Ke ts) (K : Cacheable W Fs vertex mat C P) (hone : ∀ j ∈ Fs.map (·.1), W.lightAt j ≠ none → (C j).card = 1) (i : Fin 3) (comps : SI → V3 ℝ → Finset ℕ)
    (hcomp : ∀ j ∈ Fs.map (·.1), ∀ p wi, comps (vertex j p) wi = C j) (dir : ℝ × ℝ → V3 ℝ) (hdir : ∀ q, primaryRay cam q.1 q.2 = some (dir q)) (H : ℝ × ℝ → ℝ≥0∞) (hH : Measurable H) (min N : ℕ) (hmin : 2 ≤ min) (hN : min ≤ N)
    (junk0 : ℝ) (junkW : V3 ℝ) (rsE rsL : ℕ → Rnd) :
    average N 0 rsE (fun a => average N 0 rsL (fun b => measured i H (bdptOptSample W Q junk0 junkW min N a b))) + ∫⁻ q, H q * (optics W Q i comps).incoming (min - 2) (camVertex W n cam) (dir q) ∂uniform2 =
      ∫⁻ q, H q * (optics W Q i comps).incoming (N - 1) (camVertex W n cam) (dir q) ∂uniform2 := by
  rw [h.cached K i hcomp hdir hH (k := 0) hone hmin hN junk0 junkW rsE rsL]
  simp

/-- C88. In these scenes renderer::bdptopt, with paths of 2 to N vertices, and the path tracer (renderer::pt), with paths of up to N vertices, compute the same image.
    Missing: lights on surfaces whose materials have more components, for which it is false (`C88_negation_mixture`). -/
theorem C88_same_image_partial (h : PathScene W Q n cam Fs vertex mat C f P pc node M sgn junk Ke ts) (K : Cacheable W Fs vertex mat C P) (hone : ∀ j ∈ Fs.map (·.1), W.lightAt j ≠ none → (C j).card = 1) (i : Fin 3) (comps : SI → V3 ℝ → Finset ℕ)
    (hcomp : ∀ j ∈ Fs.map (·.1), ∀ p wi, comps (vertex j p) wi = C j) (hsingle : comps (camVertex W n cam) 0 = {0}) (hun : ∀ o d, V3.dot d d ≠ 1 → Q.isect o d = none) (H : ℝ × ℝ → ℝ≥0∞) (hH : Measurable H) (N : ℕ) (hN : 2 ≤ N)
    (junk0 : ℝ) (junkW : V3 ℝ) (px : Bool) (u : RaySampleU) (uc : ℝ) (rs rsE rsL : ℕ → Rnd) :
    average N 0 rsE (fun a => average N 0 rsL (fun b => measured i H (bdptOptSample W Q junk0 junkW 2 N a b))) = average (N - 1) 1 rs (fun rs' => measured i H (ptSample W Q ⟨.naive, px, N⟩ u uc rs')) := by
  have hdir : ∀ q : ℝ × ℝ, ∃ d, primaryRay cam q.1 q.2 = some d := fun q => ⟨_, (C47_primary cam h.matte.proper q.1 q.2).choose_spec.1⟩
  choose dir hdir using hdir
  have hz : ∫⁻ q, H q * (optics W Q i comps).incoming (2 - 2) (camVertex W n cam) (dir q) ∂uniform2 = 0 := by simp [Optics.incoming]
  have := C88_bdptopt_partial h K hone i comps hcomp dir hdir H hH 2 N le_rfl hN junk0 junkW rsE rsL
  rw [hz, add_zero] at this
  rw [h.pt i comps hcomp hsingle hun dir hdir H hH N px u uc rs]
  exact this

/-- C88. In scenes in which the materials of the lights have the same number of components, more than one, the image of renderer::bdptopt is brighter than that of the path tracer, if that is finite and the camera sees light directly. -/
theorem C88_brighter (h : PathScene W Q n cam Fs vertex mat C f P pc node M sgn junk Ke ts) (K : Cacheable W Fs vertex mat C P) {k : ℕ} (hmore : ∀ j ∈ Fs.map (·.1), W.lightAt j ≠ none → (C j).card = k + 2) (i : Fin 3) (comps : SI → V3 ℝ → Finset ℕ)
    (hcomp : ∀ j ∈ Fs.map (·.1), ∀ p wi, comps (vertex j p) wi = C j) (hsingle : comps (camVertex W n cam) 0 = {0}) (hun : ∀ o d, V3.dot d d ≠ 1 → Q.isect o d = none) (H : ℝ × ℝ → ℝ≥0∞) (hH : Measurable H) (N : ℕ) (hN : 2 ≤ N)
    (junk0 : ℝ) (junkW : V3 ℝ) (px : Bool) (u : RaySampleU) (uc : ℝ) (rs rsE rsL : ℕ → Rnd) (hfin : average (N - 1) 1 rs (fun rs' => measured i H (ptSample W Q ⟨.naive, px, N⟩ u uc rs')) ≠ ⊤)
    (hdirect : average 1 1 rs (fun rs' => measured i H (ptSample W Q ⟨.naive, px, 2⟩ u uc rs')) ≠ 0) :
    average (N - 1) 1 rs (fun rs' => measured i H (ptSample W Q ⟨.naive, px, N⟩ u uc rs')) < average N 0 rsE (fun a => average N 0 rsL (fun b => measured i H (bdptOptSample W Q junk0 junkW 2 N a b))) := by
  have hdir : ∀ q : ℝ × ℝ, ∃ d, primaryRay cam q.1 q.2 = some d := fun q => ⟨_, (C47_primary cam h.matte.proper q.1 q.2).choose_spec.1⟩
  choose dir hdir using hdir
  have hz : ∫⁻ q, H q * (optics W Q i comps).incoming (2 - 2) (camVertex W n cam) (dir q) ∂uniform2 = 0 := by simp [Optics.incoming]
  have key := h.cached K i hcomp hdir hH (k := k + 1) hmore le_rfl hN junk0 junkW rsE rsL
  rw [hz, add_zero] at key
  have h2 := h.pt i comps hcomp hsingle hun dir hdir H hH 2 px u uc rs
  rw [show 2 - 1 = 1 from rfl, h.image_sum hH i hcomp hdir, Finset.sum_range_one] at h2
  rw [h2] at hdirect
  rw [h.pt i comps hcomp hsingle hun dir hdir H hH N px u uc rs] at hfin ⊢
  refine lt_of_lt_of_eq (ENNReal.lt_add_right hfin fun c => ?_) key.symm
  have := Finset.sum_eq_zero_iff.mp c 0 (Finset.mem_range.mpr (by omega))
  rw [if_pos (by norm_num)] at this
  rcases mul_eq_zero.mp this with c | c
  · norm_cast at c
  · exact h.direct_pos hH i hdirect c

end LM.Transport
