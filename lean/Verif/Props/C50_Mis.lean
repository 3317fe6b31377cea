import Verif.Props.C49_Bidir
import Mathlib.Algebra.BigOperators.Field
import Mathlib.Algebra.Order.BigOperators.Group.Finset
/-
  C50: the multiple importance sampling weights of the bidirectional strategies.
-/
namespace LM.Path
open LM LM.Surface LM.Material LM.Light LM.Volume Finset

/-- The sum the weight is the reciprocal of. -/
theorem misLoop_sum (W : World) (vs : List Vert) (q : ℕ → ℝ) (ps : ℝ) (k : ℕ) : ∀ (s2 : ℕ) (acc : ℝ), (∀ i < k, pdfBidir W vs (s2 + i) = some (q (s2 + i))) →
    misLoop W vs ps k s2 acc = some (acc + ∑ i ∈ range k, (q (s2 + i) / ps) ^ 2) := by
  induction k with
  | zero => intro s2 acc _; simp [misLoop]
  | succ k ih =>
    intro s2 acc h
    have h0 := h 0 (by omega)
    simp only [Nat.add_zero] at h0
    have hr : ∀ acc', misLoop W vs ps k (s2 + 1) acc' = some (acc' + ∑ i ∈ range k, (q (s2 + 1 + i) / ps) ^ 2) :=
      fun acc' => ih (s2 + 1) acc' (fun i hi => by have := h (i + 1) (by omega); rwa [show s2 + (i + 1) = s2 + 1 + i by omega] at this)
    rw [misLoop]
    simp only [h0, Option.bind_eq_bind, Option.bind_some]
    rw [sum_range_succ']
    have e : ∀ i, s2 + 1 + i = s2 + (i + 1) := fun i => by omega
    by_cases hz : q s2 = 0
    · rw [if_pos hz, hr]
      simp only [e, Nat.add_zero, hz]
      congr 1; ring
    · rw [if_neg hz, hr]
      simp only [e, Nat.add_zero]
      congr 1; ring

/-- C50, closed form: the weight of a strategy with positive density is p_s² / Σ_i p_i² over all strategies i = 0, ..., n (the power heuristic with exponent 2). -/
theorem C50_power (W : World) (vs : List Vert) (q : ℕ → ℝ) (hq : ∀ i ≤ vs.length, pdfBidir W vs i = some (q i)) (s : ℕ) (hs : s ≤ vs.length) (hp : 0 < q s) :
    misWeight W vs s = some (q s ^ 2 / ∑ i ∈ range (vs.length + 1), q i ^ 2) := by
  have hsum : 0 < ∑ i ∈ range (vs.length + 1), q i ^ 2 :=
    sum_pos' (fun i _ => sq_nonneg _) ⟨s, mem_range.mpr (by omega), by positivity⟩
  rw [misWeight]
  simp only [hq s hs, Option.bind_eq_bind, Option.bind_some, gt_iff_lt, hp, if_true]
  rw [misLoop_sum W vs q (q s) _ 0 0 (fun i hi => by rw [Nat.zero_add]; exact hq i (by omega))]
  simp only [Nat.zero_add, zero_add, Option.bind_some]
  have e : ∑ i ∈ range (vs.length + 1), (q i / q s) ^ 2 = (∑ i ∈ range (vs.length + 1), q i ^ 2) / q s ^ 2 := by
    rw [sum_div]; exact sum_congr rfl (fun i _ => div_pow _ _ _)
  rw [e]
  have hn : (∑ i ∈ range (vs.length + 1), q i ^ 2) / q s ^ 2 ≠ 0 := (div_pos hsum (by positivity)).ne'
  rw [divF, if_neg hn]
  congr 1
  rw [one_div, inv_div]

/-- C50: for every path for which the densities of all strategies are defined and non-negative, the weights of the strategies that can generate it are defined, lie in (0, 1], and add up to one
    as soon as one strategy can generate the path. -/
theorem C50_partition (W : World) (vs : List Vert) (q : ℕ → ℝ) (hq : ∀ i ≤ vs.length, pdfBidir W vs i = some (q i)) (h0 : ∀ i ≤ vs.length, 0 ≤ q i) :
    ∃ w : ℕ → ℝ,
      (∀ s ≤ vs.length, q s ≠ 0 → misWeight W vs s = some (w s) ∧ 0 < w s ∧ w s ≤ 1) ∧
      ((∃ s ≤ vs.length, q s ≠ 0) → ∑ s ∈ (range (vs.length + 1)).filter (fun s => q s ≠ 0), w s = 1) := by
  refine ⟨fun s => q s ^ 2 / ∑ i ∈ range (vs.length + 1), q i ^ 2, ?_, ?_⟩
  · intro s hs hne
    have hp : 0 < q s := lt_of_le_of_ne (h0 s hs) (Ne.symm hne)
    have hle : q s ^ 2 ≤ ∑ i ∈ range (vs.length + 1), q i ^ 2 :=
      single_le_sum (f := fun i => q i ^ 2) (fun i _ => sq_nonneg _) (mem_range.mpr (by omega))
    have h2 : 0 < q s ^ 2 := by positivity
    exact ⟨C50_power W vs q hq s hs hp, div_pos h2 (by linarith), (div_le_one (by linarith)).mpr hle⟩
  · rintro ⟨s, hs, hne⟩
    have hsum : 0 < ∑ i ∈ range (vs.length + 1), q i ^ 2 :=
      sum_pos' (fun i _ => sq_nonneg _) ⟨s, mem_range.mpr (by omega), by positivity⟩
    rw [← sum_div, sum_filter_of_ne]
    · exact div_self hsum.ne'
    · intro i _ h hz
      rw [hz] at h
      simp at h

/-- C50: a strategy with zero density violates the assertion; no weight is computed for it. -/
theorem C50_zero (W : World) (vs : List Vert) (s : ℕ) (h : pdfBidir W vs s = some 0) : misWeight W vs s = none := by
  simp [misWeight, h]

/-- C50: the weighted sampling weights of all strategies, each integrated against its density, add up to the measurement contribution, whenever that is the same for all of them. -/
theorem C50_combined (W : World) (vs : List Vert) (q : ℕ → ℝ) (hq : ∀ i ≤ vs.length, pdfBidir W vs i = some (q i)) (h0 : ∀ i ≤ vs.length, 0 ≤ q i)
    (f : V3 ℝ) (hf : ∀ i ≤ vs.length, q i ≠ 0 → measurementContrb W vs i = some f) (hex : ∃ s ≤ vs.length, q s ≠ 0) :
    ∃ (w : ℕ → ℝ) (C : ℕ → V3 ℝ), (∀ s ≤ vs.length, q s ≠ 0 → misWeight W vs s = some (w s) ∧ samplingWeight W vs s = some (C s)) ∧
      ∀ c : V3 ℝ → ℝ, (c = V3.x ∨ c = V3.y ∨ c = V3.z) → ∑ s ∈ (range (vs.length + 1)).filter (fun s => q s ≠ 0), q s * (w s * c (C s)) = c f := by
  obtain ⟨w, hw, hsum⟩ := C50_partition W vs q hq h0
  have hC : ∀ s, ∃ C, s ≤ vs.length → q s ≠ 0 → samplingWeight W vs s = some C ∧ q s • C = f := by
    intro s
    by_cases h : s ≤ vs.length ∧ q s ≠ 0
    · obtain ⟨C, h1, h2⟩ := C49_weight W vs s h.1 (q s) f (hq s h.1) h.2 (hf s h.1 h.2)
      exact ⟨C, fun _ _ => ⟨h1, h2⟩⟩
    · exact ⟨0, fun a b => absurd ⟨a, b⟩ h⟩
  choose C hC using hC
  refine ⟨w, C, fun s hs hn => ⟨(hw s hs hn).1, (hC s hs hn).1⟩, ?_⟩
  intro c hc
  have e : ∀ s ∈ (range (vs.length + 1)).filter (fun s => q s ≠ 0), q s * (w s * c (C s)) = w s * c f := by
    intro s hs
    rw [mem_filter, mem_range] at hs
    have := (hC s (by omega) hs.2).2
    have : q s * c (C s) = c f := by
      rw [← this]
      rcases hc with rfl | rfl | rfl <;> simp
    rw [← this]; ring
  rw [sum_congr rfl e, ← sum_mul, hsum hex, one_mul]

theorem exDen1 : pdfBidir exLine exPath 1 = some (1 / 32) := by
  have h1 : isSamplable exLine exPath 1 = some true := rfl
  have h2 : subpathPdf exLine exPath 1 .LE = some 1 := by
    have e0 : vertexAt exPath 0 .LE = some exL := rfl
    have ec : isConnectableEndpoint exLine exL.sp = some true := rfl
    have ep : pdfComponent exLine exL.sp 0 exL.comp = some 1 := rfl
    simp [subpathPdf, pdfLoop, e0, ec, ep, exPosL]
  have h3 : subpathPdf exLine exPath 2 .EL = some (1 / 32) := by
    have e0 : vertexAt exPath 0 .EL = some exE := rfl
    have e1 : vertexAt exPath 1 .EL = some exS := rfl
    have em : direction (some exE) (vertexAt exPath (-1) .EL) = some 0 := rfl
    have ec : isConnectableEndpoint exLine exE.sp = some true := rfl
    have epp : pdfPosition exLine exE.sp = some 1 := rfl
    have ep : pdfComponent exLine exE.sp 0 exE.comp = some 1 := rfl
    have ep2 : ∀ w, pdfComponent exLine exS.sp w exS.comp = some 1 := fun _ => rfl
    have hG : geometryTerm exE.sp.geom exS.sp.geom = some (1 / 4) := by
      simp [geometryTerm, exE, exS, makeDegenerated, V3.dot]; norm_num
    have ed : pdfDirection exLine exE.sp 0 ⟨0, 0, -1⟩ exE.comp false = some (1 / 8) := by
      have : exLine.cameraAt exE.sp.primitive = some exCam := rfl
      have hk : exE.sp.kind = .camera := rfl
      simp only [pdfDirection, hk, this]
      simp [camPdfDirection, rasterPosition, camJ, toEye, exCam, V3.dot, divF]; norm_num
    simp [subpathPdf, pdfLoop, e0, e1, em, ec, ep, ep2, epp, exDirES, ed, convertToArea, hG]
    norm_num
  have hl : exPath.length - 1 = 2 := rfl
  simp [pdfBidir, h1, h2, hl, h3]

/-- The path light - surface - camera: two of its four strategies can generate it. -/
example : ∃ q : ℕ → ℝ, (∀ i ≤ exPath.length, pdfBidir exLine exPath i = some (q i)) ∧ (∀ i ≤ exPath.length, 0 ≤ q i) ∧ q 0 = 0 ∧ q 1 = 1 / 32 ∧ q 2 = 1 / (4 * Real.pi) ∧ q 3 = 0 := by
  refine ⟨fun i => if i = 1 then 1 / 32 else if i = 2 then 1 / (4 * Real.pi) else 0, ?_, ?_, by simp, by simp, by simp, by simp⟩
  · intro i hi
    have hi : i ≤ 3 := hi
    interval_cases i
    · rfl
    · simpa using exDen1
    · simpa [pdfSphere] using exDen
    · rfl
  · intro i _
    have := Real.pi_pos
    dsimp only
    split_ifs <;> positivity

end LM.Path
