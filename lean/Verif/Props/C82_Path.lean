import Verif.Props.C82_Nee
import Verif.Props.C47_Camera
namespace LM.Transport
open MeasureTheory LM LM.Surface LM.Material LM.Light LM.Path LM.Render LM.Solid
open scoped ENNReal

/-- The camera as a vertex. -/
noncomputable def camVertex (W : World) (n : Int) (cam : Camera) : SI := ⟨.camera, n, makeDegenerated cam.position W.junk⟩

theorem measurable_toEye (c : Camera) : Measurable (toEye c) := by
  unfold toEye
  exact measurable_mk (measurable_cdot _) (measurable_cdot _) (measurable_cdot _)

theorem measurable_onCamera (W : World) (n : Int) (cam : Camera) (hn : W.st.camera = some n) (hc : W.cameraAt n = some cam) (H : ℝ × ℝ → ℝ≥0∞) (hH : Measurable H) (rp : ℝ × ℝ) : Measurable (onFilm W H 1 rp) := by
  have e : onFilm W H 1 rp = fun d => if (toEye cam d).z ≥ 0 then 0 else
      if (-(toEye cam d).x / (toEye cam d).z / cam.tf / cam.aspect * (1 / 2) + 1 / 2 < 0 ∨ -(toEye cam d).x / (toEye cam d).z / cam.tf / cam.aspect * (1 / 2) + 1 / 2 > 1 ∨
        -(toEye cam d).y / (toEye cam d).z / cam.tf * (1 / 2) + 1 / 2 < 0 ∨ -(toEye cam d).y / (toEye cam d).z / cam.tf * (1 / 2) + 1 / 2 > 1) then 0 else
      H (-(toEye cam d).x / (toEye cam d).z / cam.tf / cam.aspect * (1 / 2) + 1 / 2, -(toEye cam d).y / (toEye cam d).z / cam.tf * (1 / 2) + 1 / 2) := by
    funext d
    simp only [onFilm, if_true, rasterAt, hn, Option.bind_some, hc, Option.map_some, rasterPosition]
    by_cases h1 : (toEye cam d).z ≥ 0
    · rw [if_pos h1, if_pos h1]
    · rw [if_neg h1, if_neg h1]
      split_ifs with h2
      · rfl
      · rfl
  have hx : Measurable fun d => (toEye cam d).x := measurable_x.comp (measurable_toEye cam)
  have hy : Measurable fun d => (toEye cam d).y := measurable_y.comp (measurable_toEye cam)
  have hz : Measurable fun d => (toEye cam d).z := measurable_z.comp (measurable_toEye cam)
  have hX : Measurable fun d => -(toEye cam d).x / (toEye cam d).z / cam.tf / cam.aspect * (1 / 2) + 1 / 2 := ((((hx.neg.div hz).div_const _).div_const _).mul_const _).add_const _
  have hY : Measurable fun d => -(toEye cam d).y / (toEye cam d).z / cam.tf * (1 / 2) + 1 / 2 := (((hy.neg.div hz).div_const _).mul_const _).add_const _
  rw [e]
  refine Measurable.ite (measurableSet_le measurable_const hz) measurable_const (Measurable.ite ?_ measurable_const (hH.comp (hX.prodMk hY)))
  exact (measurableSet_lt hX measurable_const).union ((measurableSet_lt measurable_const hX).union ((measurableSet_lt hY measurable_const).union (measurableSet_lt measurable_const hY)))

theorem measurable_dir {cam : Camera} {dir : ℝ × ℝ → V3 ℝ} (hdir : ∀ q, primaryRay cam q.1 q.2 = some (dir q)) : Measurable dir := by
  have e : dir = fun q => lin cam.u cam.v cam.w (dirOf ⟨cam.aspect * cam.tf * (2 * q.1 - 1), cam.tf * (2 * q.2 - 1), -1⟩) := by
    funext q
    have h := hdir q
    simp only [primaryRay, Material.normalize] at h
    split at h
    · simp at h
    · simp only [Option.map_some, Option.some.injEq] at h
      rw [← h]; rfl
  rw [e]
  have h1 : Measurable fun q : ℝ × ℝ => (⟨cam.aspect * cam.tf * (2 * q.1 - 1), cam.tf * (2 * q.2 - 1), -1⟩ : V3 ℝ) :=
    measurable_mk (((measurable_fst.const_mul 2).sub_const 1).const_mul _) (((measurable_snd.const_mul 2).sub_const 1).const_mul _) measurable_const
  have h2 := measurable_dirOf.comp h1
  exact measurable_add3 (measurable_add3 (measurable_smul3 (measurable_x.comp h2) measurable_const) (measurable_smul3 (measurable_y.comp h2) measurable_const)) (measurable_smul3 (measurable_z.comp h2) measurable_const)

theorem lintegral_map_equiv_first (f : ℝ × ℝ → ℝ≥0∞) (hf : Measurable f) : ∫⁻ q, f q ∂uniform2 = ∫⁻ u, f (u.1, u.2.1) ∂uniform3 := (first2.lintegral_comp hf).symm

/-- C82. What the path tracer computes. In every mode and for every maximal length of paths: the average over all random numbers of what one sample adds to the film, weighted with any function H of the position on
    the film, is the integral over the film of H times the radiance arriving at the camera along the primary ray through the position, up to the maximal length of paths. -/
theorem C82_pt (W : World) (Q : Query) (S : Optics) (N : Connection) (i : Fin 3) (good) (hS : Sound W Q S i good) (c : Cfg) (hN : c.mode ≠ .naive → NeeSound W Q S N i good)
    (n : Int) (cam : Camera) (hn : W.st.camera = some n) (hcam : W.cameraAt n = some cam) (hp : cam.Proper) (hg : good (camVertex W n cam) 0) (h0 : 0 ∈ S.comps (camVertex W n cam) 0)
    (dir : ℝ × ℝ → V3 ℝ) (hdir : ∀ q, primaryRay cam q.1 q.2 = some (dir q)) (H : ℝ × ℝ → ℝ≥0∞) (hH : Measurable H) (u : RaySampleU) (uc : ℝ) (rs : ℕ → Rnd) :
    average (c.maxVerts - 1) 1 rs (fun rs' => measured i H (ptSample W Q c u uc rs')) =
      ∫⁻ q, H q * S.incoming (c.maxVerts - 1) (camVertex W n cam) (dir q) ∂uniform2 := by
  have hstart : ptStart W uc u = some ⟨camVertex W n cam, 0, 0, V3.all 1, (0, 0)⟩ := by
    simp only [ptStart, samplePosition, hn, hcam, sampleComponent, Option.map_some, one_smul]
    rfl
  have hsamp : ∀ rs', ptSample W Q c u uc rs' = walk W (rouletteAt (2 / 10)) (ptBody W Q c) rs' (c.maxVerts - 1) 1 ⟨camVertex W n cam, 0, 0, V3.all 1, (0, 0)⟩ := fun rs' => by
    unfold ptSample
    rw [hstart]; rfl
  have hsd : ∀ v : DirU, sampleDirection W v (camVertex W n cam) 0 0 .EL = .ok (dir (v.ud0, v.ud1)) (V3.all 1) := fun v => by
    have := hdir (v.ud0, v.ud1)
    dsimp only at this
    simp only [sampleDirection, camVertex, hcam, this]
  have hon : ∀ q : ℝ × ℝ, (0 ≤ q.1 ∧ q.1 < 1) ∧ (0 ≤ q.2 ∧ q.2 < 1) → rasterAt W (dir q) = some (some q) := fun q hq => by
    have := C47_round_trip cam hp q.1 q.2 ⟨hq.1.1, hq.1.2.le⟩ ⟨hq.2.1, hq.2.2.le⟩
    rw [hdir q, Option.bind_some] at this
    simp only [rasterAt, hn, Option.bind_some, hcam, Option.map_some, this]
  have hfilm := measurable_onCamera W n cam hn hcam H hH (0, 0)
  have hone : chan i (V3.all (1 : ℝ)) = 1 := by fin_cases i <;> rfl
  simp_rw [hsamp]
  rw [C82_walk W Q S N i good hS c hN H rs (c.maxVerts - 1) 1 le_rfl _ hg h0 ⟨zero_le_one, zero_le_one, zero_le_one⟩ hfilm (fun _ d => ⟨rasterPosition cam d, by simp only [rasterAt, hn, Option.bind_some, hcam, Option.map_some]⟩)]
  · have hL : Measurable fun d => onFilm W H 1 (0, 0) d * S.incoming (c.maxVerts - 1) (camVertex W n cam) d := hfilm.mul (hS.measurable _ _ _ hg)
    dsimp only
    rw [hone, ENNReal.ofReal_one, one_mul, ← hS.unbiased _ _ hg 0 h0 _ hL]
    simp_rw [hsd]
    simp only [worth, hone, ENNReal.ofReal_one, one_mul]
    rw [← lintegral_map_equiv_first (fun q => onFilm W H 1 (0, 0) (dir q) * S.incoming (c.maxVerts - 1) (camVertex W n cam) (dir q)) (hL.comp (measurable_dir hdir))]
    refine lintegral_congr_ae (int2_ae.mono fun q hq => ?_)
    simp [onFilm, hon q hq]
  · intro _
    filter_upwards [int3_ae] with v hv wo C hd
    rw [hsd] at hd
    cases hd
    exact ⟨_, hon (v.1, v.2.1) ⟨hv.1, hv.2.1⟩⟩

end LM.Transport
