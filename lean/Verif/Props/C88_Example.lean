import Verif.Props.C88_Cached
import Verif.Props.C87_Example
import Verif.Props.C82_Finish
/-
  C88: the theorems in the scene of C86_Example, and a scene in which the image of renderer::bdptopt is too bright: the same with a mixture of two materials.
-/
namespace LM.Transport
open MeasureTheory LM LM.Surface LM.Material LM.Light LM.MathF LM.Path LM.Render LM.Solid LM.Chain Set
open scoped ENNReal

/-! ### One component -/

theorem exGlow_cacheable : Cacheable exGlowing exFaces glowAt (fun _ => diffuse fun _ => V3.all (1 / 2)) (fun _ => {0}) glowP where
  reverse j _ c _ p wi wo _ _ _ _ := ⟨_, rfl⟩
  blind j hj := by rcases glow_faces hj with rfl | rfl <;> rfl

/-- renderer::bdptopt and the path tracer compute the same image of this scene, for every number of vertices. -/
example (H : ℝ × ℝ → ℝ≥0∞) (hH : Measurable H) (i : Fin 3) (N : ℕ) (hN : 2 ≤ N) (junk0 : ℝ) (junkW : V3 ℝ) (px : Bool) (u : RaySampleU) (uc : ℝ) (rs rsE rsL : ℕ → Rnd) :
    average N 0 rsE (fun a => average N 0 rsL (fun b => measured i H (bdptOptSample exGlowing exGlowQ junk0 junkW 2 N a b))) = average (N - 1) 1 rs (fun rs' => measured i H (ptSample exGlowing exGlowQ ⟨.naive, px, N⟩ u uc rs')) :=
  C88_same_image_partial exGlow_paths exGlow_cacheable (fun _ _ _ => rfl) i exComps (fun _ _ _ _ => rfl) rfl glow_unit H hH N hN junk0 junkW px u uc rs rsE rsL

example (H : ℝ × ℝ → ℝ≥0∞) (hH : Measurable H) (i : Fin 3) (junk0 : ℝ) (junkW : V3 ℝ) (rsE rsL : ℕ → Rnd) (dir : ℝ × ℝ → V3 ℝ) (hdir : ∀ q, primaryRay exCam q.1 q.2 = some (dir q)) :
    average 5 0 rsE (fun a => average 5 0 rsL (fun b => measured i H (bdptOptSample exGlowing exGlowQ junk0 junkW 3 5 a b))) + ∫⁻ q, H q * (optics exGlowing exGlowQ i exComps).incoming 1 (camVertex exGlowing 3 exCam) (dir q) ∂uniform2 =
      ∫⁻ q, H q * (optics exGlowing exGlowQ i exComps).incoming 4 (camVertex exGlowing 3 exCam) (dir q) ∂uniform2 :=
  C88_bdptopt_partial exGlow_paths exGlow_cacheable (fun _ _ _ => rfl) i exComps (fun _ _ _ _ => rfl) dir hdir H hH 3 5 (by norm_num) (by norm_num) junk0 junkW rsE rsL

/-- Random numbers of 4 iterations for which the subpaths are the same. -/
example (junk0 : ℝ) (junkW : V3 ℝ) (r : ℕ → Rnd) (hr : ∀ m < 4, (r m).Valid) : (sampleSubpathOpt exGlowing exGlowQ junk0 junkW 4 .EL r).map (List.map CV.vert) = sampleSubpath exGlowing exGlowQ 4 .EL r :=
  (C88_subpaths exGlow_paths exGlow_cacheable 4 r hr junk0 junkW).1

/-! ### Two components -/

/-- Half of the light is scattered by each of two equal materials. -/
noncomputable def halves : List Entry := [(diffuse fun _ => V3.all (1 / 2), 1 / 2), (diffuse fun _ => V3.all (1 / 2), 1 / 2)]

/-- The scene with the mixture of these materials: material::constant_weight_mixture_rr. -/
noncomputable def exMixed : World := { exGlowing with material := fun _ => mixtureRR halves }

noncomputable def mixF (j : Int) (c : ℕ) (p wi wo : V3 ℝ) : V3 ℝ := (1 / 2 : ℝ) • glowF j c p wi wo

def mixComps (s : SI) (_ : V3 ℝ) : Finset ℕ := if s.primitive = 3 then {0} else Finset.range 2

theorem half_at {c : ℕ} (hc : c ∈ Finset.range 2) : halves[c]? = some (diffuse fun _ => V3.all (1 / 2), 1 / 2) := by
  have : c = 0 ∨ c = 1 := by have := Finset.mem_range.mp hc; omega
  rcases this with rfl | rfl <;> rfl

theorem half_mem {e : Entry} (h : e ∈ halves) : e = (diffuse fun _ => V3.all (1 / 2), 1 / 2) := by simpa [halves] using h

theorem half_sum : (halves.map (·.2)).sum = 1 := by norm_num [halves]

theorem mixed_rr (j : Int) (p wi : V3 ℝ) (hg : V3.dot wi (glowAt j p).geom.n ≠ 0) :
    MatOk (mixtureRR halves) (glowAt j p).geom wi (Finset.range halves.length) ∧ (∀ c ∈ Finset.range halves.length, Smooth (mixtureRR halves) c (glowAt j p).geom wi ∧ MaterialDensity (mixtureRR halves) c (glowAt j p).geom wi) ∧
      (∀ c (hc : c < halves.length), (mixtureRR halves).pdfComponent c (glowAt j p).geom wi = some (halves[c].2 / (halves.map (·.2)).sum)) ∧
      ∀ u, 0 ≤ u → u < 1 → ∀ c w, (mixtureRR halves).sampleComponent u (glowAt j p).geom wi = some (c, w) → ∃ hc : c < halves.length, w * (halves[c].2 / (halves.map (·.2)).sum) = 1 := rr_range halves (glowAt j p).geom wi (fun e he => by rw [half_mem he]; norm_num) (by simp [halves]) fun e he => by
  rw [half_mem he]
  exact ⟨C80_diffuse _ _ _ _ (glow_on j p) hg, diffuse_smooth _ _ _ _ (glow_on j p) hg half_nonneg, (diffuse_covers _ _ _ _).2⟩

theorem exMixed_matte : Matte exMixed exGlowQ 3 exCam exFaces glowAt (fun _ => mixtureRR halves) (fun _ => Finset.range 2) mixF where
  camera := rfl
  cameraAt := rfl
  proper := exCam_proper
  faceted := exGlow_faceted
  face := exGlow_matte.face
  surface j hj p := by
    refine ⟨rfl, glow_on j p, ?_⟩
    rcases glow_faces hj with rfl | rfl <;> rfl
  normal := exGlow_matte.normal
  material j hj p wi hwi hg := ⟨(mixed_rr j p wi hg).1, (mixed_rr j p wi hg).2.1⟩
  eval j hj c hc p wi wo h1 h2 h3 := by
    obtain ⟨a, b⟩ := exGlow_matte.eval j hj 0 (by simp) p wi wo h1 h2 h3
    refine ⟨nonneg_smul (by norm_num) a, fun dir e => ?_⟩
    have := b dir e
    simp only [mixtureRR, half_at hc, Option.bind_some, this, Option.map_some]
    rfl
  measurable j c := measurable_smul3 measurable_const (exGlow_matte.measurable j c)
  reciprocal j hj c hc p wi wo h1 h2 h3 h4 := congrArg ((1 / 2 : ℝ) • ·) (exGlow_matte.reciprocal j hj 0 (by simp) p wi wo h1 h2 h3 h4)
  sight := exGlow_matte.sight

theorem exMixed_lamps : Lamps exMixed exFaces glowAt (fun _ => 1) (fun _ => 1) (fun _ => false) 0 (fun _ => V3.all 1) (fun _ => [glowTri]) where
  table := ⟨exGlow_table.pos, exGlow_table.entry, exGlow_table.index, exGlow_table.light⟩
  size := exGlow_lamps.size
  nonneg := exGlow_lamps.nonneg
  only := exGlow_lamps.only
  faces := exGlow_lamps.faces
  flat := exGlow_lamps.flat

theorem exMixed_paths : PathScene exMixed exGlowQ 3 exCam exFaces glowAt (fun _ => mixtureRR halves) (fun _ => Finset.range 2) mixF glowP (fun _ _ _ _ => 1 / 2) (fun _ => 1) (fun _ => 1) (fun _ => false) 0 (fun _ => V3.all 1) (fun _ => [glowTri]) where
  matte := exMixed_matte
  lamps := exMixed_lamps
  flat := exGlow_paths.flat
  pdf j hj c hc p wi wo h1 h2 h3 := by
    simp only [mixtureRR, half_at hc, Option.bind_some]
    rfl
  pdf_measurable := exGlow_paths.pdf_measurable
  component j hj c hc p wi h1 h2 := by
    have hl : c < halves.length := Finset.mem_range.mp hc
    refine ⟨?_, by norm_num⟩
    rw [(mixed_rr j p wi h2).2.2.1 c hl, half_sum, div_one, half_mem (List.getElem_mem hl)]
  component_measurable j c := measurable_const
  select j hj p wi h1 h2 u h3 h4 c w e := by
    obtain ⟨hl, hw⟩ := (mixed_rr j p wi h2).2.2.2 u h3 h4 c w e
    rw [half_sum, div_one, half_mem (List.getElem_mem hl)] at hw
    exact hw
  listed := exGlow_paths.listed
  other := exGlow_paths.other
  place := exGlow_paths.place
  sight := exGlow_paths.sight

theorem exMixed_cacheable : Cacheable exMixed exFaces glowAt (fun _ => mixtureRR halves) (fun _ => Finset.range 2) glowP where
  reverse j _ c hc p wi wo _ _ _ _ := by
    simp only [mixtureRR, half_at hc, Option.bind_some]
    exact ⟨_, rfl⟩
  blind j hj := by rcases glow_faces hj with rfl | rfl <;> rfl

theorem mix_comps (j : Int) (hj : j ∈ exFaces.map (·.1)) (p wi : V3 ℝ) : mixComps (glowAt j p) wi = Finset.range 2 := by
  unfold mixComps
  rcases glow_faces hj with rfl | rfl <;> rfl

/-- The mixture scatters like its materials. -/
theorem mix_kernel (i : Fin 3) (dir : TransDir) : kernel glowAt (fun _ => Finset.range 2) mixF i dir = kernel glowAt (fun _ => {0}) glowF i dir := by
  funext x wi wo
  unfold kernel
  rw [Finset.sum_singleton, Finset.sum_range_succ, Finset.sum_range_one]
  have e : ∀ c, kern glowAt mixF i dir c x wi wo = ENNReal.ofReal (1 / 2) * kern glowAt glowF i dir 0 x wi wo := fun c => by
    unfold kern
    have : chan i (mixF x.1 c x.2 wi wo) = 1 / 2 * chan i (glowF x.1 0 x.2 wi wo) := by
      show chan i ((1 / 2 : ℝ) • glowF x.1 0 x.2 wi wo) = _
      fin_cases i <;> simp [chan]
    rw [this, ENNReal.ofReal_mul (by norm_num)]
    ring
  rw [e, e, ← add_mul, ← ENNReal.ofReal_add (by norm_num) (by norm_num)]
  norm_num

/-- The radiance at the camera is that of the scene with one material. -/
theorem mix_incoming (i : Fin 3) (k : ℕ) (d : V3 ℝ) (hd : V3.dot d d = 1) :
    (optics exMixed exGlowQ i mixComps).incoming k (camVertex exMixed 3 exCam) d = (optics exGlowing exGlowQ i exComps).incoming k (camVertex exGlowing 3 exCam) d := by
  rw [exMixed_matte.incoming i mix_comps (exMixed_lamps.measurable exMixed_matte i) (fun j hj p w => (if_pos hj).symm) k _ 0 d hd,
    exGlow_matte.incoming i (fun _ _ _ _ => rfl) (exGlow_lamps.measurable exGlow_matte i) (fun j hj p w => (if_pos hj).symm) k _ 0 d hd, mix_kernel]
  rfl

/-- The image is finite. -/
theorem glow_finite (i : Fin 3) (k : ℕ) (dir : ℝ × ℝ → V3 ℝ) (hunit : ∀ q, V3.dot (dir q) (dir q) = 1) : ∫⁻ q, 1 * (optics exGlowing exGlowQ i exComps).incoming k (camVertex exGlowing 3 exCam) (dir q) ∂uniform2 ≠ ⊤ := by
  obtain ⟨c, hc⟩ := glow_bounded i k
  refine ((lintegral_mono (g := fun _ => (c : ℝ≥0∞)) fun q => ?_).trans_lt ?_).ne
  · dsimp only
    rw [one_mul, exGlow_matte.incoming i (fun _ _ _ _ => rfl) (exGlow_lamps.measurable exGlow_matte i) (fun j hj p w => (if_pos hj).symm) _ _ 0 _ (hunit q)]
    exact hc _ _ (hunit q)
  · have h1 : uniform2 univ = 1 := by
      unfold uniform2; rw [Measure.restrict_apply_univ, Measure.volume_eq_prod, Measure.prod_prod]; simp
    rw [lintegral_const, h1, mul_one]
    exact ENNReal.coe_lt_top

/-- The camera sees light. -/
theorem glow_lit (i : Fin 3) (dir : ℝ × ℝ → V3 ℝ) (hdir : ∀ q, primaryRay exCam q.1 q.2 = some (dir q)) : ∫⁻ q, 1 * (optics exGlowing exGlowQ i exComps).incoming 1 (camVertex exGlowing 3 exCam) (dir q) ∂uniform2 ≠ 0 := by
  intro h0
  have hbox : (1 : ℝ≥0∞) * uniform2 (Ioo (1 / 2 : ℝ) (5 / 8) ×ˢ Ioo (1 / 2 : ℝ) (3 / 4)) ≤ 0 := by
    rw [← h0, ← lintegral_indicator_const (measurableSet_Ioo.prod measurableSet_Ioo)]
    refine lintegral_mono fun q => ?_
    by_cases hq : q ∈ Ioo (1 / 2 : ℝ) (5 / 8) ×ˢ Ioo (1 / 2 : ℝ) (3 / 4)
    · rw [indicator_of_mem hq, one_mul]
      exact glow_direct i dir hdir q hq.1 hq.2
    · rw [indicator_of_notMem hq]
      exact zero_le
  have hsub : Ioo (1 / 2 : ℝ) (5 / 8) ×ˢ Ioo (1 / 2 : ℝ) (3 / 4) ⊆ Ico (0 : ℝ) 1 ×ˢ Ico (0 : ℝ) 1 := by
    rintro q ⟨⟨h1, h2⟩, h3, h4⟩
    exact ⟨⟨by linarith, by linarith⟩, by linarith, by linarith⟩
  unfold uniform2 at hbox
  rw [one_mul, Measure.restrict_apply (measurableSet_Ioo.prod measurableSet_Ioo), inter_eq_self_of_subset_left hsub, Measure.volume_eq_prod, Measure.prod_prod, Real.volume_Ioo, Real.volume_Ioo, ← ENNReal.ofReal_mul (by norm_num)] at hbox
  have := ENNReal.ofReal_eq_zero.mp (le_antisymm hbox zero_le)
  norm_num at this

/-- C88, negation. renderer::bdptopt and the path tracer do not compute the same image: there is a scene with one area light on a surface whose material is a mixture of two materials, in which for every maximal length of paths the image
    of renderer::bdptopt, summed up, is brighter than that of the path tracer. The contribution of paths whose last vertex is found by sampling directions from the camera is the emission times the throughput at that vertex, and the
    throughput contains the weight of the component of the material selected there, although nothing is scattered (renderer_bdptopt.cpp:205-212, 272). -/
theorem C88_negation_mixture (i : Fin 3) (N : ℕ) (hN : 2 ≤ N) (junk0 : ℝ) (junkW : V3 ℝ) (px : Bool) (u : RaySampleU) (uc : ℝ) (rs rsE rsL : ℕ → Rnd) :
    average (N - 1) 1 rs (fun rs' => measured i (fun _ => 1) (ptSample exMixed exGlowQ ⟨.naive, px, N⟩ u uc rs')) <
      average N 0 rsE (fun a => average N 0 rsL (fun b => measured i (fun _ => 1) (bdptOptSample exMixed exGlowQ junk0 junkW 2 N a b))) := by
  have hdir : ∀ q : ℝ × ℝ, ∃ d, primaryRay exCam q.1 q.2 = some d ∧ V3.dot d d = 1 := fun q => ⟨_, (C47_primary exCam exCam_proper q.1 q.2).choose_spec.1, (C47_primary exCam exCam_proper q.1 q.2).choose_spec.2.1⟩
  choose dir hdir hunit using hdir
  have hpt : ∀ K, average (K - 1) 1 rs (fun rs' => measured i (fun _ => 1) (ptSample exMixed exGlowQ ⟨.naive, px, K⟩ u uc rs')) = ∫⁻ q, 1 * (optics exGlowing exGlowQ i exComps).incoming (K - 1) (camVertex exGlowing 3 exCam) (dir q) ∂uniform2 := fun K => by
    rw [exMixed_paths.pt i mixComps mix_comps rfl glow_unit dir hdir (fun _ => 1) measurable_const K px u uc rs]
    simp_rw [mix_incoming i _ _ (hunit _)]
  refine C88_brighter exMixed_paths exMixed_cacheable (k := 0) (fun _ _ _ => rfl) i mixComps mix_comps rfl glow_unit (fun _ => 1) measurable_const N hN junk0 junkW px u uc rs rsE rsL ?_ ?_
  · rw [hpt]; exact glow_finite i _ dir hunit
  · have := hpt 2
    rw [show 2 - 1 = 1 from rfl] at this
    rw [this]; exact glow_lit i dir hdir

/-- renderer::bdpt and the path tracer do compute the same image of this scene. -/
example (H : ℝ × ℝ → ℝ≥0∞) (hH : Measurable H) (i : Fin 3) (N : ℕ) (hN : 2 ≤ N) (px : Bool) (u : RaySampleU) (uc : ℝ) (rs rsE rsL : ℕ → Rnd) :
    average N 0 rsE (fun a => average N 0 rsL (fun b => measured i H (bdptSample exMixed exGlowQ 2 N a b))) = average (N - 1) 1 rs (fun rs' => measured i H (ptSample exMixed exGlowQ ⟨.naive, px, N⟩ u uc rs')) :=
  (C87_same_image exMixed_paths i mixComps mix_comps rfl glow_unit H hH N hN px u uc rs rsE rsL).1

end LM.Transport
