import Verif.Props.C46_Light
import Mathlib.Tactic.IntervalCases
import Mathlib.Analysis.SpecialFunctions.Trigonometric.Bounds
namespace LM.Light
open LM LM.MathF LM.Surface LM.Material

/-! ### The environment map: directions and map coordinates -/

theorem frac_eq (x : ℝ) (n : ℤ) (u : ℝ) (h0 : 0 ≤ u) (h1 : u < 1) (h : x = u + n) : frac x = u := by
  unfold frac
  have : ⌊x⌋ = n := by rw [h, Int.floor_add_intCast, Int.floor_eq_zero_iff.mpr ⟨h0, h1⟩, zero_add]
  rw [this, h]; ring

theorem envDir_unit (rot u v : ℝ) : V3.dot (envDir rot u v) (envDir rot u v) = 1 := by
  simp only [envDir, V3.dot]
  have a := Real.sin_sq_add_cos_sq (Real.pi * v)
  have b := Real.sin_sq_add_cos_sq (2 * Real.pi * u + rot)
  linear_combination (Real.sin (Real.pi * v)) ^ 2 * b + a

/-- C46. Looking up the map coordinates of the direction generated for (u, v) gives (u, v) back, away from the poles, for every rotation of the map. -/
theorem C46_env_round_trip (rot u v : ℝ) (hu0 : 0 ≤ u) (hu1 : u < 1) (hv0 : 0 < v) (hv1 : v < 1) : envCoords rot (envDir rot u v) = (u, v) := by
  have hpi := Real.pi_pos
  have hst : 0 < Real.sin (Real.pi * v) := Real.sin_pos_of_pos_of_lt_pi (by positivity) (by nlinarith)
  have harg := Complex.arg_mul_cos_add_sin_mul_I_sub hst (2 * Real.pi * u + rot)
  have hz : (⟨(envDir rot u v).z, (envDir rot u v).x⟩ : ℂ) = (Real.sin (Real.pi * v) : ℂ) * (Complex.cos ((2 * Real.pi * u + rot : ℝ) : ℂ) + Complex.sin ((2 * Real.pi * u + rot : ℝ) : ℂ) * Complex.I) := by
    apply Complex.ext
    · simp only [envDir, Complex.mul_re, Complex.add_re, Complex.I_re, Complex.I_im, Complex.ofReal_re, Complex.ofReal_im, ← Complex.ofReal_cos, ← Complex.ofReal_sin, Complex.mul_im, Complex.add_im]; ring
    · simp only [envDir, Complex.mul_re, Complex.add_re, Complex.I_re, Complex.I_im, Complex.ofReal_re, Complex.ofReal_im, ← Complex.ofReal_cos, ← Complex.ofReal_sin, Complex.mul_im, Complex.add_im]; ring
  have hA : atan2 (envDir rot u v).x (envDir rot u v).z = 2 * Real.pi * u + rot + 2 * Real.pi * (⌊(Real.pi - (2 * Real.pi * u + rot)) / (2 * Real.pi)⌋ : ℤ) := by
    unfold atan2
    rw [hz]
    linarith [harg]
  set n := ⌊(Real.pi - (2 * Real.pi * u + rot)) / (2 * Real.pi)⌋
  have hv : Real.arccos (envDir rot u v).y / Real.pi = v := by
    simp only [envDir]
    rw [Real.arccos_cos (by positivity) (by nlinarith)]
    field_simp
  have hu : frac (((if atan2 (envDir rot u v).x (envDir rot u v).z < 0 then atan2 (envDir rot u v).x (envDir rot u v).z + 2 * Real.pi else atan2 (envDir rot u v).x (envDir rot u v).z) - rot) * (1 / 2) / Real.pi) = u := by
    split
    · apply frac_eq _ (n + 1) u hu0 hu1
      rw [hA]; push_cast; field_simp; ring
    · apply frac_eq _ n u hu0 hu1
      rw [hA]; field_simp; ring
  unfold envCoords
  simp only
  rw [hu, hv]

/-- C46. Environment map lights: emission rays. -/
theorem C46_env_ray (sgn : V3 ℝ → Bool) (junk : V3 ℝ) (tex : ℝ → ℝ → V3 ℝ) (d2 : Dist.Dist2 ℝ) (rot : ℝ) (c : V3 ℝ) (r : ℝ) (hr : 0 < r) (M : Aff ℝ) :
    RayEst (env sgn junk tex d2 rot c r) M ∧ JointOnly (env sgn junk tex d2 rot c r) := by
  obtain ⟨p, hp, hpos, _⟩ := pdfDisk_pos r hr
  have hsp := pdfSphere_pos
  refine ⟨fun us hu => ?_, ⟨fun _ _ => rfl, fun _ _ => rfl, fun _ _ => rfl, fun _ _ => rfl⟩⟩
  have hd := (C34_sphere us.ud0 us.ud1 hu.2.2.2.1.1 hu.2.2.2.1.2.le).1
  set d := sampleUniformSphere us.ud0 us.ud1
  set g := makeInfinite d (diskPoint sgn c r d us) junk
  obtain ⟨C, e, hc⟩ := ray_ok g d (envEval tex rot g) (pdfSphere * p) (by positivity)
  refine ⟨g, d, C, pdfSphere * p, ?_, hd, by simp only [env, hp]; rfl, by positivity, hc⟩
  simp only [env, hp, Option.map_some]; exact e

/-- C46 (partial: non-negative weights, which construct does not guarantee, see below). Sampling towards a finite point g from the environment map selects a map position (u, v) in a texel of positive weight;
    away from the poles and from grazing incidence it returns a ray from the direction of (u, v) carrying the texture value at (u, v), with weight · density = emission, and the density is
    (density of (u, v)) / (2 π² sin θ) in solid angle, divided by the cosine at g. Missing: negative weights (C46_negation_env_weights). -/
theorem C46_env_direct_partial (sgn : V3 ℝ → Bool) (junk : V3 ℝ) (tex : ℝ → ℝ → V3 ℝ) (ws : List ℝ) (w h : Nat) (hw : 0 < w) (hh : 0 < h) (hlen : ws.length = w * h) (hnn : ∀ x ∈ ws, 0 ≤ x)
    (hrow : ∀ i < h, 0 < (Dist.rowOf ws w i).sum) (rot : ℝ) (c : V3 ℝ) (r : ℝ) (M : Aff ℝ) (us : RayU) (hu : us.Valid) (g : Geom) :
    ∃ d2, Dist.init Dist.fresh ws w h = some d2 ∧ ∃ x y wxy, x < w ∧ y < h ∧ ws[y * w + x]? = some wxy ∧ 0 < wxy ∧
      ∀ u v, u = ((x : ℝ) + us.up0) / w → v = ((y : ℝ) + us.up1) / h → 0 < v → (g.degenerated = true ∨ V3.dot g.n (envDir rot u v) ≠ 0) →
        ∃ gL C p, (env sgn junk tex d2 rot c r).sampleDirect us g M = .ok gL (-envDir rot u v) C ∧ gL.infinite = true ∧ gL.wo = -envDir rot u v ∧
          (env sgn junk tex d2 rot c r).pdfDirect g gL M (-envDir rot u v) false = some p ∧ 0 < p ∧ p • C = tex u v ∧
          (env sgn junk tex d2 rot c r).eval gL (-envDir rot u v) false = tex u v ∧
          p * cosAt g (envDir rot u v) = wxy / (Dist.rowSums ws w h).sum * w * h / (2 * Real.pi ^ 2 * Real.sin (Real.pi * v)) := by
  obtain ⟨d2, e1, e2, e3⟩ := Dist.C29_sample_partial ws w h hw hh hlen hnn hrow
  obtain ⟨x, y, wxy, hx, hy, hget, hpos, hs, hu0, hu1, hv0, hv1⟩ := e3 us.ud0 us.ud1 us.up0 us.up1 hu.2.2.2.1.1 hu.2.2.2.1.2 hu.2.2.2.2.1 hu.2.2.2.2.2 hu.1.1 hu.1.2 hu.2.1.1 hu.2.1.2
  refine ⟨d2, e1, x, y, wxy, hx, hy, hget, hpos, ?_⟩
  intro u v hue hve hv hg
  rw [← hue] at hu0 hu1
  rw [← hve] at hv0 hv1
  rw [← hue, ← hve] at hs
  have hpi := Real.pi_pos
  have hst : 0 < Real.sin (Real.pi * v) := Real.sin_pos_of_pos_of_lt_pi (by positivity) (by nlinarith)
  obtain ⟨wxy', hget', hpdf⟩ := e2 x y us.up0 us.up1 hx hy hu.1.1 hu.1.2 hu.2.1.1 hu.2.1.2
  rw [hget] at hget'; cases hget'
  rw [← hue, ← hve] at hpdf
  have hrt := C46_env_round_trip rot u v hu0 hu1 hv hv1
  set D := envDir rot u v with hD
  have htot : 0 < (Dist.rowSums ws w h).sum := by
    have hl : (Dist.rowSums ws w h).length = h := by simp [Dist.rowSums]
    have hsums : ∀ s ∈ Dist.rowSums ws w h, 0 ≤ s := by
      intro s hm
      obtain ⟨i, hi, rfl⟩ := List.mem_map.mp hm
      exact (hrow i (List.mem_range.mp hi)).le
    have h0 : (Dist.rowSums ws w h)[0]'(by rw [hl]; exact hh) ≤ (Dist.rowSums ws w h).sum := List.single_le_sum hsums _ (List.getElem_mem _)
    have : (Dist.rowSums ws w h)[0]'(by rw [hl]; exact hh) = (Dist.rowOf ws w 0).sum := by simp [Dist.rowSums]
    rw [this] at h0
    linarith [hrow 0 hh]
  have hwp : (0:ℝ) < w := by exact_mod_cast hw
  have hhp : (0:ℝ) < h := by exact_mod_cast hh
  set q := wxy / (Dist.rowSums ws w h).sum * w * h with hq
  have hqp : 0 < q := by positivity
  have hsafe : safeSqrt (1 - D.y * D.y) = Real.sin (Real.pi * v) := by
    have : 1 - D.y * D.y = Real.sin (Real.pi * v) ^ 2 := by
      rw [hD]; simp only [envDir]
      linear_combination -(Real.sin_sq_add_cos_sq (Real.pi * v))
    rw [this, safeSqrt_of_nonneg (by positivity), Real.sqrt_sq hst.le]
  have hev : envEval tex rot (makeInfinite (-D) junk junk) = tex u v := by
    unfold envEval
    simp only [makeInfinite, neg_neg, hrt]
  have hpd : envPdfDirect d2 rot g (makeInfinite (-D) junk junk) = some (convertSAtoProjSA (q / (2 * Real.pi * Real.pi * Real.sin (Real.pi * v))) g D) := by
    unfold envPdfDirect
    simp only [makeInfinite, neg_neg, hrt, hsafe, hst.ne', if_false, hpdf, Option.map_some]
  have hcp := convert_pos (q / (2 * Real.pi * Real.pi * Real.sin (Real.pi * v))) (by positivity) g D hg
  obtain ⟨C, eC, hC⟩ := rayOrFail_pos (makeInfinite (-D) junk junk) (-D) (tex u v) _ hcp
  refine ⟨makeInfinite (-D) junk junk, C, _, ?_, rfl, rfl, hpd, hcp, hC, hev, ?_⟩
  · simp only [env, hs]
    rw [← hD, hev, hpd]; exact eC
  · obtain ⟨a, b, _⟩ := C43_convert (q / (2 * Real.pi * Real.pi * Real.sin (Real.pi * v))) g D
    have e : q / (2 * Real.pi * Real.pi * Real.sin (Real.pi * v)) = q / (2 * Real.pi ^ 2 * Real.sin (Real.pi * v)) := by ring
    cases hdg : g.degenerated with
    | true => rw [a hdg, cosAt, if_pos hdg, mul_one, e]
    | false =>
      have hn : V3.dot g.n D ≠ 0 := by
        rcases hg with h | h
        · rw [hdg] at h; cases h
        · exact h
      rw [cosAt, if_neg (by simp [hdg]), b hdg hn, e]

/-- C46 fails for environment maps: the row angle is computed from i / w as a floating point number, so it grows along the row. Every texel in the right half of the last row gets a
    negative weight (hence a negative selection probability and density), for every map width and height and however bright the texel. -/
theorem C46_negation_env_weights (lum : Nat → ℝ) (w h x : Nat) (hx : w < 2 * x) (hxw : x < w) (hh : 0 < h) (hl : 0 < lum ((h - 1) * w + x)) :
    ∃ q, (envWeights lum w h)[(h - 1) * w + x]? = some q ∧ q < 0 := by
  have hlt : (h - 1) * w + x < w * h := by
    obtain ⟨k, rfl⟩ : ∃ k, h = k + 1 := ⟨h - 1, by omega⟩
    have : w * (k + 1) = k * w + w := by ring
    simp only [Nat.add_sub_cancel]; omega
  refine ⟨envWeight lum w h ((h - 1) * w + x), by simp [envWeights, hlt], ?_⟩
  unfold envWeight
  have hpi := Real.pi_pos
  have hwp : (0:ℝ) < w := by exact_mod_cast (by omega : 0 < w)
  have hhp : (0:ℝ) < h := by exact_mod_cast hh
  have hh1 : (1:ℝ) ≤ h := by exact_mod_cast hh
  have e : (((h - 1) * w + x : ℕ) : ℝ) / w = (h - 1) + (x : ℝ) / w := by
    rw [Nat.cast_add, Nat.cast_mul, Nat.cast_sub (by omega)]; push_cast; field_simp
  have h1 : 1 / 2 < (x : ℝ) / w := by
    rw [lt_div_iff₀ hwp]
    have : (w : ℝ) < 2 * x := by exact_mod_cast hx
    linarith
  have h2 : (x : ℝ) / w < 1 := by
    rw [div_lt_one hwp]; exact_mod_cast hxw
  have hsin : Real.sin (Real.pi * ((((h - 1) * w + x : ℕ) : ℝ) / w + 1 / 2) / h) < 0 := by
    rw [e]
    have hval : Real.pi * ((h : ℝ) - 1 + (x : ℝ) / w + 1 / 2) / h = Real.pi * (((x : ℝ) / w - 1 / 2) / h) + Real.pi := by field_simp; ring
    rw [hval, Real.sin_add_pi]
    have : 0 < Real.sin (Real.pi * (((x : ℝ) / w - 1 / 2) / h)) := by
      apply Real.sin_pos_of_pos_of_lt_pi
      · have : 0 < ((x : ℝ) / w - 1 / 2) / h := by apply div_pos <;> linarith
        positivity
      · have : ((x : ℝ) / w - 1 / 2) / h < 1 := by rw [div_lt_one hhp]; linarith
        nlinarith
    linarith
  nlinarith

example : (3:Nat) < 2 * 2 ∧ 2 < 3 := by decide
example : (∀ x ∈ [(1:ℝ), 3, 2, 2], 0 ≤ x) ∧ ∀ i < 2, 0 < (Dist.rowOf [(1:ℝ), 3, 2, 2] 2 i).sum := by
  refine ⟨by norm_num, fun i hi => ?_⟩
  interval_cases i <;> simp [Dist.rowOf] <;> norm_num

end LM.Light
