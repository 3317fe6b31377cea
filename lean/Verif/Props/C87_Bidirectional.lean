import Verif.Props.C87_Scene
/-
  C87: the renderers on bidirectional paths compute the image of the path tracer.
-/
namespace LM.Transport
open MeasureTheory LM LM.Surface LM.Material LM.Light LM.MathF LM.Path LM.Render LM.Solid LM.Chain Set
open scoped ENNReal

variable {W : World} {Q : Query} {n : Int} {cam : Camera} {Fs : List (Int × Tri)} {vertex : Int → V3 ℝ → SI} {mat : Int → Mat} {C : Int → Finset ℕ} {f : Int → ℕ → V3 ℝ → V3 ℝ → V3 ℝ → V3 ℝ}
  {P : Int → ℕ → V3 ℝ → V3 ℝ → V3 ℝ → ℝ} {pc : Int → ℕ → V3 ℝ → V3 ℝ → ℝ} {node : ℕ → Int} {M : ℕ → Aff ℝ} {sgn : V3 ℝ → Bool} {junk : V3 ℝ} {Ke : ℕ → V3 ℝ} {ts : ℕ → List Tri}

namespace PathScene
variable (h : PathScene W Q n cam Fs vertex mat C f P pc node M sgn junk Ke ts)

local notation "S" => siteOf W Q cam Fs vertex C f P pc M ts

include h

theorem emits (H : ℝ × ℝ → ℝ≥0∞) (i : Fin 3) : ∀ j ∈ Fs.map (·.1), ∀ p w, emitted W i (vertex j p) w = (S H).emit i (j, p) w := fun j _ p w => by
  show emitted W i (vertex j p) w = ENNReal.ofReal (chan i (lampEval W vertex j p w))
  unfold emitted lampEval
  rw [(h.matte.faceted.at_point j p).1]
  cases W.lightAt j with
  | none => fin_cases i <;> simp [chan]
  | some L => rfl

/-- One more vertex of the path tracer: the paths with one more point between the camera and the light. -/
theorem image_succ {H : ℝ × ℝ → ℝ≥0∞} (hH : Measurable H) (i : Fin 3) {comps : SI → V3 ℝ → Finset ℕ} (hcomp : ∀ j ∈ Fs.map (·.1), ∀ p wi, comps (vertex j p) wi = C j) {dir : ℝ × ℝ → V3 ℝ} (hdir : ∀ q, primaryRay cam q.1 q.2 = some (dir q)) (k : ℕ) :
    ∫⁻ q, H q * (optics W Q i comps).incoming (k + 1) (camVertex W n cam) (dir q) ∂uniform2 =
      ∫⁻ q, H q * (optics W Q i comps).incoming k (camVertex W n cam) (dir q) ∂uniform2 + (S H).through i k := by
  have hS := h.sound hH
  obtain ⟨We, hWm, hWe, hw⟩ := h.camera
  have hE : Adjoint.Meas ((S H).emit i) := hS.m_emit i
  have e : ∀ k, ∫⁻ q, H q * (optics W Q i comps).incoming k (camVertex W n cam) (dir q) ∂uniform2 =
      ∫⁻ d, onFilm W H 1 (0, 0) d * ENNReal.ofReal (We d) * Adjoint.light (fun x d => hitOf Q x.2 d) solidAngle (kernel vertex C f i .EL) ((S H).emit i) k (0, cam.position) d ∂solidAngle := fun k => by
    have hL := (h.matte.reversible i).light hE k
    rw [← h.matte.film hWm (fun d => (hw d).2.1) hdir hH (hL.from _)]
    refine lintegral_congr fun q => ?_
    rw [h.matte.incoming i hcomp hE (h.emits H i) k (camVertex W n cam) 0 (dir q) (primary_unit h.matte.proper (hdir q))]
    rfl
  rw [e, e]
  unfold Site.through
  rw [hS.whole_order i k 0]
  have hL := (h.matte.reversible i).light hE k
  have hfilm := measurable_onCamera W n cam h.matte.camera h.matte.cameraAt H hH (0, 0)
  have hm : Measurable fun d => onFilm W H 1 (0, 0) d * ENNReal.ofReal (We d) * Adjoint.light (fun x d => hitOf Q x.2 d) solidAngle (kernel vertex C f i .EL) ((S H).emit i) k (0, cam.position) d :=
    (hfilm.mul hWm.ennreal_ofReal).mul (hL.from _)
  rw [← lintegral_add_left hm]
  refine lintegral_congr fun d => ?_
  have := hS.light_succ i k (0, cam.position) d
  rw [hWe, show (S H).film d = onFilm W H 1 (0, 0) d from rfl, ← mul_add]
  exact congrArg _ this

theorem image_sum {H : ℝ × ℝ → ℝ≥0∞} (hH : Measurable H) (i : Fin 3) {comps : SI → V3 ℝ → Finset ℕ} (hcomp : ∀ j ∈ Fs.map (·.1), ∀ p wi, comps (vertex j p) wi = C j) {dir : ℝ × ℝ → V3 ℝ} (hdir : ∀ q, primaryRay cam q.1 q.2 = some (dir q)) (k : ℕ) :
    ∫⁻ q, H q * (optics W Q i comps).incoming k (camVertex W n cam) (dir q) ∂uniform2 = ∑ j ∈ Finset.range k, (S H).through i j := by
  induction k with
  | zero => simp [Optics.incoming]
  | succ k ih => rw [h.image_succ hH i hcomp hdir k, ih, Finset.sum_range_succ]

/-- The paths with at least min vertices, and those with fewer. -/
theorem image_limits {H : ℝ × ℝ → ℝ≥0∞} (hH : Measurable H) (i : Fin 3) {comps : SI → V3 ℝ → Finset ℕ} (hcomp : ∀ j ∈ Fs.map (·.1), ∀ p wi, comps (vertex j p) wi = C j) {dir : ℝ × ℝ → V3 ℝ} (hdir : ∀ q, primaryRay cam q.1 q.2 = some (dir q)) {min N : ℕ} (hmin : min ≤ N) :
    (∑ j ∈ Finset.range (N - 1), if (min : ℤ) ≤ (j : ℤ) + 2 then (S H).through i j else 0) + ∫⁻ q, H q * (optics W Q i comps).incoming (min - 2) (camVertex W n cam) (dir q) ∂uniform2 =
      ∫⁻ q, H q * (optics W Q i comps).incoming (N - 1) (camVertex W n cam) (dir q) ∂uniform2 := by
  rw [h.image_sum hH i hcomp hdir, h.image_sum hH i hcomp hdir, show N - 1 = (min - 2) + (N - 1 - (min - 2)) by omega, Finset.sum_range_add, Finset.sum_range_add, add_comm]
  rw [Finset.sum_eq_zero (s := Finset.range (min - 2)) (f := fun j : ℕ => if (min : ℤ) ≤ (j : ℤ) + 2 then (S H).through i j else 0) fun j hj => if_neg (by have := Finset.mem_range.mp hj; omega), zero_add]
  congr 1
  exact Finset.sum_congr rfl fun j _ => if_pos (by push_cast; omega)

end PathScene

/-- C87. What renderer::bdpt computes: the average over all random numbers of both subpaths of what one sample adds to the film, weighted with any function H of the position on the film, is the integral over the film of H times the
    radiance arriving at the camera along the primary ray by paths with at least `min` and at most `N` vertices: with the radiance that arrives by paths of fewer vertices (`incoming (min - 2)`), it is the radiance of all paths up to N. -/
theorem C87_bdpt (h : PathScene W Q n cam Fs vertex mat C f P pc node M sgn junk Ke ts) (i : Fin 3) (comps : SI → V3 ℝ → Finset ℕ) (hcomp : ∀ j ∈ Fs.map (·.1), ∀ p wi, comps (vertex j p) wi = C j)
    (dir : ℝ × ℝ → V3 ℝ) (hdir : ∀ q, primaryRay cam q.1 q.2 = some (dir q)) (H : ℝ × ℝ → ℝ≥0∞) (hH : Measurable H) (min N : ℕ) (hmin : 2 ≤ min) (hN : min ≤ N) (rsE rsL : ℕ → Rnd) :
    average N 0 rsE (fun a => average N 0 rsL (fun b => measured i H (bdptSample W Q min N a b))) + ∫⁻ q, H q * (optics W Q i comps).incoming (min - 2) (camVertex W n cam) (dir q) ∂uniform2 =
      ∫⁻ q, H q * (optics W Q i comps).incoming (N - 1) (camVertex W n cam) (dir q) ∂uniform2 := by
  have := Site.Works.bdpt (h.proper H) (h.sound hH) (h.works H) (h.seer H) (h.lamped H) (h.told H) (h.stage H) i (min := (min : ℤ)) (by exact_mod_cast hmin) (N := N) (by omega) rsE rsL
  rw [← h.image_limits hH i hcomp hdir hN]
  exact congrArg (· + _) this

/-- C87. What renderer::pt_naive_path computes. -/
theorem C87_pt_naive_path (h : PathScene W Q n cam Fs vertex mat C f P pc node M sgn junk Ke ts) (i : Fin 3) (comps : SI → V3 ℝ → Finset ℕ) (hcomp : ∀ j ∈ Fs.map (·.1), ∀ p wi, comps (vertex j p) wi = C j)
    (dir : ℝ × ℝ → V3 ℝ) (hdir : ∀ q, primaryRay cam q.1 q.2 = some (dir q)) (H : ℝ × ℝ → ℝ≥0∞) (hH : Measurable H) (min N : ℕ) (hN : min ≤ N) (hN2 : 2 ≤ N) (rsE : ℕ → Rnd) :
    average N 0 rsE (fun a => measured i H (ptNaivePathSample W Q min N a)) + ∫⁻ q, H q * (optics W Q i comps).incoming (min - 2) (camVertex W n cam) (dir q) ∂uniform2 =
      ∫⁻ q, H q * (optics W Q i comps).incoming (N - 1) (camVertex W n cam) (dir q) ∂uniform2 := by
  have := Site.Works.ptNaivePath (h.proper H) (h.sound hH) (h.works H) (h.seer H) (h.told H) (h.stage H) i (min : ℤ) (N := N) hN2 rsE
  rw [← h.image_limits hH i hcomp hdir hN]
  exact congrArg (· + _) this

/-- C87. What renderer::pt_nee_path computes. -/
theorem C87_pt_nee_path (h : PathScene W Q n cam Fs vertex mat C f P pc node M sgn junk Ke ts) (i : Fin 3) (comps : SI → V3 ℝ → Finset ℕ) (hcomp : ∀ j ∈ Fs.map (·.1), ∀ p wi, comps (vertex j p) wi = C j)
    (dir : ℝ × ℝ → V3 ℝ) (hdir : ∀ q, primaryRay cam q.1 q.2 = some (dir q)) (H : ℝ × ℝ → ℝ≥0∞) (hH : Measurable H) (min N : ℕ) (hN : min ≤ N) (hN2 : 2 ≤ N) (rsE rsL : ℕ → Rnd) :
    average N 0 rsE (fun a => average 1 0 rsL (fun b => measured i H (ptNeePathSample W Q min N a b))) + ∫⁻ q, H q * (optics W Q i comps).incoming (min - 2) (camVertex W n cam) (dir q) ∂uniform2 =
      ∫⁻ q, H q * (optics W Q i comps).incoming (N - 1) (camVertex W n cam) (dir q) ∂uniform2 := by
  have := Site.Works.ptNeePath (h.proper H) (h.sound hH) (h.works H) (h.seer H) (h.lamped H) (h.told H) (h.stage H) i (min : ℤ) (N := N) hN2 rsE rsL
  rw [← h.image_limits hH i hcomp hdir hN]
  exact congrArg (· + _) this

/-- C87. What renderer::lt_nee_path computes. -/
theorem C87_lt_nee_path (h : PathScene W Q n cam Fs vertex mat C f P pc node M sgn junk Ke ts) (i : Fin 3) (comps : SI → V3 ℝ → Finset ℕ) (hcomp : ∀ j ∈ Fs.map (·.1), ∀ p wi, comps (vertex j p) wi = C j)
    (dir : ℝ × ℝ → V3 ℝ) (hdir : ∀ q, primaryRay cam q.1 q.2 = some (dir q)) (H : ℝ × ℝ → ℝ≥0∞) (hH : Measurable H) (min N : ℕ) (hN : min ≤ N) (hN2 : 2 ≤ N) (rsE rsL : ℕ → Rnd) :
    average 1 0 rsE (fun a => average N 0 rsL (fun b => measured i H (ltNeePathSample W Q min N a b))) + ∫⁻ q, H q * (optics W Q i comps).incoming (min - 2) (camVertex W n cam) (dir q) ∂uniform2 =
      ∫⁻ q, H q * (optics W Q i comps).incoming (N - 1) (camVertex W n cam) (dir q) ∂uniform2 := by
  have := Site.Works.ltNeePath (h.proper H) (h.sound hH) (h.works H) (h.seer H) (h.lamped H) (h.told H) (h.stage H) i (min : ℤ) (N := N) hN2 rsE rsL
  rw [← h.image_limits hH i hcomp hdir hN]
  exact congrArg (· + _) this

/-- C87. The image of the path tracer (renderer::pt) in these scenes, for the statement of `C87_same_image`. -/
theorem PathScene.pt (h : PathScene W Q n cam Fs vertex mat C f P pc node M sgn junk Ke ts) (i : Fin 3) (comps : SI → V3 ℝ → Finset ℕ) (hcomp : ∀ j ∈ Fs.map (·.1), ∀ p wi, comps (vertex j p) wi = C j)
    (hsingle : comps (camVertex W n cam) 0 = {0}) (hun : ∀ o d, V3.dot d d ≠ 1 → Q.isect o d = none) (dir : ℝ × ℝ → V3 ℝ) (hdir : ∀ q, primaryRay cam q.1 q.2 = some (dir q)) (H : ℝ × ℝ → ℝ≥0∞) (hH : Measurable H) (N : ℕ) (px : Bool) (u : RaySampleU) (uc : ℝ) (rs : ℕ → Rnd) :
    average (N - 1) 1 rs (fun rs' => measured i H (ptSample W Q ⟨.naive, px, N⟩ u uc rs')) = ∫⁻ q, H q * (optics W Q i comps).incoming (N - 1) (camVertex W n cam) (dir q) ∂uniform2 := by
  have hE := h.lamps.measurable h.matte i
  have hEe : ∀ j ∈ Fs.map (·.1), ∀ p w, emitted W i (vertex j p) w = emission W Fs vertex i (j, p) w := fun j hj p w => (if_pos hj).symm
  have hR := h.matte.regular hcomp hsingle
  have hS := hR.sound i fun k sp _ _ => h.matte.measurable_incoming i hcomp hE hEe hun k sp
  exact C82_pt W Q _ (connection W Q) i _ hS ⟨.naive, px, N⟩ (fun hc => absurd rfl hc) n cam h.matte.camera hR.camera hR.proper (.inl ⟨rfl, rfl⟩) (by show 0 ∈ comps _ _; rw [hR.single]; simp) dir hdir H hH u uc rs

/-- C87. The renderers on bidirectional paths (renderer::bdpt, pt_naive_path, pt_nee_path, lt_nee_path), with paths of 2 to N vertices, and the path tracer (renderer::pt) with paths of up to N vertices, compute the same image: the averages
    over all random numbers of what a sample adds to the film, weighted with any function H of the position on the film, are equal. -/
theorem C87_same_image (h : PathScene W Q n cam Fs vertex mat C f P pc node M sgn junk Ke ts) (i : Fin 3) (comps : SI → V3 ℝ → Finset ℕ) (hcomp : ∀ j ∈ Fs.map (·.1), ∀ p wi, comps (vertex j p) wi = C j)
    (hsingle : comps (camVertex W n cam) 0 = {0}) (hun : ∀ o d, V3.dot d d ≠ 1 → Q.isect o d = none) (H : ℝ × ℝ → ℝ≥0∞) (hH : Measurable H) (N : ℕ) (hN : 2 ≤ N) (px : Bool) (u : RaySampleU) (uc : ℝ) (rs rsE rsL : ℕ → Rnd) :
    let image := average (N - 1) 1 rs (fun rs' => measured i H (ptSample W Q ⟨.naive, px, N⟩ u uc rs'))
    average N 0 rsE (fun a => average N 0 rsL (fun b => measured i H (bdptSample W Q 2 N a b))) = image ∧
    average N 0 rsE (fun a => measured i H (ptNaivePathSample W Q 2 N a)) = image ∧
    average N 0 rsE (fun a => average 1 0 rsL (fun b => measured i H (ptNeePathSample W Q 2 N a b))) = image ∧
    average 1 0 rsE (fun a => average N 0 rsL (fun b => measured i H (ltNeePathSample W Q 2 N a b))) = image := by
  have hdir : ∀ q : ℝ × ℝ, ∃ d, primaryRay cam q.1 q.2 = some d := fun q => ⟨_, (C47_primary cam h.matte.proper q.1 q.2).choose_spec.1⟩
  choose dir hdir using hdir
  have hz : ∫⁻ q, H q * (optics W Q i comps).incoming (2 - 2) (camVertex W n cam) (dir q) ∂uniform2 = 0 := by simp [Optics.incoming]
  intro image
  have hi : image = _ := h.pt i comps hcomp hsingle hun dir hdir H hH N px u uc rs
  rw [hi]
  refine ⟨?_, ?_, ?_, ?_⟩
  · have := C87_bdpt h i comps hcomp dir hdir H hH 2 N le_rfl hN rsE rsL
    rw [hz, add_zero] at this
    exact this
  · have := C87_pt_naive_path h i comps hcomp dir hdir H hH 2 N hN hN rsE
    rw [hz, add_zero] at this
    exact this
  · have := C87_pt_nee_path h i comps hcomp dir hdir H hH 2 N hN hN rsE rsL
    rw [hz, add_zero] at this
    exact this
  · have := C87_lt_nee_path h i comps hcomp dir hdir H hH 2 N hN hN rsE rsL
    rw [hz, add_zero] at this
    exact this

end LM.Transport
