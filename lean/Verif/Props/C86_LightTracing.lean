import Verif.Props.C86_Light
import Verif.Props.C82_Direct
/-
  C86: light tracing and path tracing.
-/
namespace LM.Transport
open MeasureTheory LM LM.Surface LM.Material LM.Light LM.MathF LM.Path LM.Render LM.Solid Set
open scoped ENNReal

variable {W : World} {Q : Query} {n : Int} {cam : Camera} {Fs : List (Int × Tri)} {vertex : Int → V3 ℝ → SI} {m : Int → Mat} {C : Int → Finset ℕ} {f : Int → ℕ → V3 ℝ → V3 ℝ → V3 ℝ → V3 ℝ}
variable {node : ℕ → Int} {M : ℕ → Aff ℝ} {sgn : V3 ℝ → Bool} {junk : V3 ℝ} {Ke : ℕ → V3 ℝ} {ts : ℕ → List Tri}

/-- C86. What the light tracer computes, in scenes of triangles with area lights whose materials have BSDFs: the average over all random numbers of what one sample adds to the film, weighted with any function H of the
    position on the film, is the integral over the film of H times the radiance arriving at the camera along the primary ray, up to the maximal length of paths, except for the light that arrives directly from the lights
    (`incoming 1`).
    Missing: the light that arrives directly from the lights, which is not in the image of the light tracer (`C86_negation_direct`); scenes with specular materials (the connections to the camera miss them: `C86_specular_black`, `C86_negation_mirror`), with lights that
    are not area lights (point, directional and environment lights: `C86_lamps_partial`), with lights smoothed by shading normals, and with BSDFs that are not reciprocal. -/
theorem C86_lt_partial (hm : Matte W Q n cam Fs vertex m C f) (h : Lamps W Fs vertex node M sgn junk Ke ts) (i : Fin 3) (comps : SI → V3 ℝ → Finset ℕ) (hcomp : ∀ j ∈ Fs.map (·.1), ∀ p wi, comps (vertex j p) wi = C j)
    (dir : ℝ × ℝ → V3 ℝ) (hdir : ∀ q, primaryRay cam q.1 q.2 = some (dir q)) (H : ℝ × ℝ → ℝ≥0∞) (hH : Measurable H) (N : ℕ) (hN : 2 ≤ N) (rs : ℕ → Rnd) :
    averageLight (fun u => ∫⁻ uc, average (N - 2) 2 rs (fun rs' => measured i H (ltSample W Q N u uc rs')) ∂uniform1) + ∫⁻ q, H q * (optics W Q i comps).incoming 1 (camVertex W n cam) (dir q) ∂uniform2 =
      ∫⁻ q, H q * (optics W Q i comps).incoming (N - 1) (camVertex W n cam) (dir q) ∂uniform2 := by
  obtain ⟨P, hPm, hP⟩ := cam_measurable hm.proper
  have hE := h.measurable hm i
  have hEe : ∀ j ∈ Fs.map (·.1), ∀ p w, emitted W i (vertex j p) w = emission W Fs vertex i (j, p) w := fun j hj p w => (if_pos hj).symm
  rw [lt_average hm h i hcomp hH hPm (fun d => (hP d).1) (fun d => (hP d).2.2) N rs, ← Adjoint.adjoint (hm.reversible i) hE (hm.measurable_recorded i hH hPm) (N - 2)]
  have := hm.film_split i hcomp hE hEe hPm (fun d => (hP d).2.1) (fun d => (hP d).2.2) hdir hH (N - 2)
  rw [show N - 1 = N - 2 + 1 by omega, this, add_comm]

/-- Scenes of triangles are fit for path tracing. -/
theorem Matte.regular (hm : Matte W Q n cam Fs vertex m C f) {comps : SI → V3 ℝ → Finset ℕ} (hcomp : ∀ j ∈ Fs.map (·.1), ∀ p wi, comps (vertex j p) wi = C j) (hsingle : comps (camVertex W n cam) 0 = {0}) : Regular W Q n cam comps where
  camera := hm.cameraAt
  proper := hm.proper
  single := hsingle
  surface o d hit hd hi _ := by
    obtain ⟨hj, hg⟩ := hm.face o d hit hd hi
    have hs := hm.faceted.same o d hit hd hi
    obtain ⟨hk, hon, hmat⟩ := hm.surface _ hj hit.geom.p
    have hdn : V3.dot (-d) (-d) = 1 := by simpa [V3.dot] using hd
    have hgn : V3.dot (-d) (vertex hit.primitive hit.geom.p).geom.n ≠ 0 := by
      rw [← hs, V3.dot_comm, V3.dot_neg_right, V3.dot_comm]; exact neg_ne_zero.mpr hg
    refine ⟨by rw [hs]; exact hk, by rw [hs]; exact (hm.faceted.at_point _ _).2.2.2, by rw [hs]; exact hon, hg, m hit.primitive, hmat, ?_⟩
    have h1 := (hm.material _ hj hit.geom.p (-d) hdn hgn).1
    have h2 := hcomp _ hj hit.geom.p (-d)
    rw [← hs] at h1 h2
    rw [h2]
    exact h1
  infinite o d hit hd hi hf := by
    rw [hm.faceted.same o d hit hd hi, (hm.faceted.at_point _ _).2.2.1] at hf
    cases hf

theorem Matte.measurable_incoming (hm : Matte W Q n cam Fs vertex m C f) (i : Fin 3) {comps : SI → V3 ℝ → Finset ℕ} (hcomp : ∀ j ∈ Fs.map (·.1), ∀ p wi, comps (vertex j p) wi = C j) {E : Spot → V3 ℝ → ℝ≥0∞} (hE : Adjoint.Meas E)
    (hEe : ∀ j ∈ Fs.map (·.1), ∀ p w, emitted W i (vertex j p) w = E (j, p) w) (hun : ∀ o d, V3.dot d d ≠ 1 → Q.isect o d = none) (k : ℕ) (sp : SI) : Measurable ((optics W Q i comps).incoming k sp) := by
  have hL := ((hm.reversible i).light hE k).from (0, sp.geom.p)
  have hs : MeasurableSet {d : V3 ℝ | V3.dot d d = 1} := measurableSet_eq_fun (measurable_dot3 measurable_id measurable_id) measurable_const
  refine (congrArg Measurable (funext fun d => ?_)).mp (hL.indicator hs)
  by_cases hd : V3.dot d d = 1
  · rw [indicator_of_mem (show d ∈ {d : V3 ℝ | V3.dot d d = 1} from hd), hm.incoming i hcomp hE hEe k sp 0 d hd]
  · rw [indicator_of_notMem (show d ∉ {d : V3 ℝ | V3.dot d d = 1} from hd)]
    cases k with
    | zero => rfl
    | succ k =>
      have : (optics W Q i comps).isect sp.geom.p d = none := hun _ _ hd
      simp only [Optics.incoming, this]

/-- C86. Light tracing and path tracing compute the same image, up to the lights that the camera sees: for every maximal length N, the image of the light tracer and the image of the path tracer with maximal length 2 (the
    lights that the camera sees) add up to the image of the path tracer with maximal length N. Each image is the average over all random numbers of what a sample adds to the film, weighted with any function H of the
    position on the film.
    Missing: as for `C86_lt_partial`. -/
theorem C86_same_image_partial (hm : Matte W Q n cam Fs vertex m C f) (h : Lamps W Fs vertex node M sgn junk Ke ts) (i : Fin 3) (comps : SI → V3 ℝ → Finset ℕ) (hcomp : ∀ j ∈ Fs.map (·.1), ∀ p wi, comps (vertex j p) wi = C j)
    (hsingle : comps (camVertex W n cam) 0 = {0}) (hun : ∀ o d, V3.dot d d ≠ 1 → Q.isect o d = none) (H : ℝ × ℝ → ℝ≥0∞) (hH : Measurable H) (N : ℕ) (hN : 2 ≤ N) (px : Bool) (u : RaySampleU) (uc : ℝ) (rs : ℕ → Rnd) :
    averageLight (fun u => ∫⁻ uc, average (N - 2) 2 rs (fun rs' => measured i H (ltSample W Q N u uc rs')) ∂uniform1) + average 1 1 rs (fun rs' => measured i H (ptSample W Q ⟨.naive, px, 2⟩ u uc rs')) =
      average (N - 1) 1 rs (fun rs' => measured i H (ptSample W Q ⟨.naive, px, N⟩ u uc rs')) := by
  have hdir : ∀ q : ℝ × ℝ, ∃ d, primaryRay cam q.1 q.2 = some d := fun q => ⟨_, (C47_primary cam hm.proper q.1 q.2).choose_spec.1⟩
  choose dir hdir using hdir
  have hE := h.measurable hm i
  have hEe : ∀ j ∈ Fs.map (·.1), ∀ p w, emitted W i (vertex j p) w = emission W Fs vertex i (j, p) w := fun j hj p w => (if_pos hj).symm
  have hR := hm.regular hcomp hsingle
  have hS := hR.sound i fun k sp _ _ => hm.measurable_incoming i hcomp hE hEe hun k sp
  have hpt : ∀ N, average (N - 1) 1 rs (fun rs' => measured i H (ptSample W Q ⟨.naive, px, N⟩ u uc rs')) = ∫⁻ q, H q * (optics W Q i comps).incoming (N - 1) (camVertex W n cam) (dir q) ∂uniform2 := fun N =>
    C82_pt W Q _ (connection W Q) i _ hS ⟨.naive, px, N⟩ (fun hc => absurd rfl hc) n cam hm.camera hR.camera hR.proper (.inl ⟨rfl, rfl⟩) (by show 0 ∈ comps _ _; rw [hR.single]; simp) dir hdir H hH u uc rs
  have h2 := hpt 2
  rw [show 2 - 1 = 1 from rfl] at h2
  rw [hpt N, h2]
  exact C86_lt_partial hm h i comps hcomp dir hdir H hH N hN rs

end LM.Transport
