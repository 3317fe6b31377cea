import Verif.Props.C46_Light
import Mathlib.Analysis.SpecialFunctions.Trigonometric.Deriv
import Mathlib.Analysis.SpecialFunctions.Trigonometric.Bounds
namespace LM.Light
open LM LM.MathF LM.Surface LM.Material

/-! ### Specification -/

/-- A camera with an orthonormal frame (looking along -w) and a proper screen. -/
def Camera.Proper (c : Camera) : Prop := Orthonormal c.u c.v c.w ∧ 0 < c.tf ∧ 0 < c.aspect

/-- The point of the image plane (at distance 1 in front of the camera) seen at raster position (x, y): the corners of the unit square are the corners of the screen of half height tf
    and half width aspect · tf. -/
noncomputable def Camera.screen (c : Camera) (x y : ℝ) : V3 ℝ := (c.aspect * c.tf * (2 * x - 1)) • c.u + (c.tf * (2 * y - 1)) • c.v - c.w

/-- d points towards the screen point of (x, y). -/
def Camera.Towards (c : Camera) (d : V3 ℝ) (x y : ℝ) : Prop := ∃ k : ℝ, 0 < k ∧ k • d = c.screen x y

/-! ### Construction -/

/-- C47. Constructing a camera from position, look-at point and up vector gives a right-handed orthonormal frame looking at the centre, whenever the up vector is not parallel to the viewing direction. -/
theorem C47_look_at (position center up : V3 ℝ) (tf aspect : ℝ) (h : V3.cross up (position - center) ≠ 0) :
    ∃ c, lookAt position center up tf aspect = some c ∧ Orthonormal c.u c.v c.w ∧ c.position = position ∧ c.tf = tf ∧ c.aspect = aspect ∧
      (∃ k : ℝ, 0 < k ∧ center - position = k • (-c.w)) ∧ 0 < V3.dot up c.v := by
  have hne : position - center ≠ 0 := by
    intro e; apply h; rw [e]; ext <;> simp [V3.cross]
  obtain ⟨w, hw⟩ := normalize_of_ne hne
  obtain ⟨w1, k, hk, hwk⟩ := normalize_unit hw
  have hcr : V3.cross up w ≠ 0 := by
    intro e; apply h; rw [hwk]
    have : V3.cross up (k • w) = k • V3.cross up w := by ext <;> simp [V3.cross] <;> ring
    rw [this, e, smul_zero]
  obtain ⟨u, hu⟩ := normalize_of_ne hcr
  obtain ⟨u1, l, hl, huk⟩ := normalize_unit hu
  have huw : V3.dot u w = 0 := by
    have e : l * V3.dot u w = 0 := by
      rw [← V3.dot_smul_left, ← huk]; simp [V3.dot, V3.cross]; ring
    exact (mul_eq_zero.mp e).resolve_left hl.ne'
  have lag : V3.dot (V3.cross w u) (V3.cross w u) = V3.dot w w * V3.dot u u - V3.dot u w * V3.dot u w := by simp only [V3.dot, V3.cross]; ring
  refine ⟨⟨position, u, V3.cross w u, w, tf, aspect⟩, by simp only [lookAt, hw, hu, Option.bind_eq_bind, Option.bind_some]; rfl,
    ⟨u1, ?_, w1, ?_, huw, ?_, ?_⟩, rfl, rfl, rfl, ⟨k, hk, ?_⟩, ?_⟩
  · show V3.dot (V3.cross w u) (V3.cross w u) = 1
    rw [lag, w1, u1, huw]; ring
  · simp only [V3.dot, V3.cross]; ring
  · simp only [V3.dot, V3.cross]; ring
  · have : V3.cross u (V3.cross w u) = V3.dot u u • w - V3.dot u w • u := by ext <;> simp [V3.cross, V3.dot] <;> ring
    show V3.cross u (V3.cross w u) = w
    rw [this, u1, huw, one_smul, zero_smul, sub_zero]
  · show center - position = k • (-w)
    rw [smul_neg, ← hwk]; abel
  · show 0 < V3.dot up (V3.cross w u)
    have e : V3.dot up (V3.cross w u) = V3.dot (V3.cross up w) u := by simp only [V3.dot, V3.cross]; ring
    rw [e, huk, V3.dot_smul_left, u1]; linarith

/-- C47. The half height of the screen is positive for every field of view strictly between 0 and 180 degrees. -/
theorem C47_fov (vfov : ℝ) (h0 : 0 < vfov) (h1 : vfov < 180) : 0 < tfOf vfov := by
  unfold tfOf
  have := Real.pi_pos
  apply Real.tan_pos_of_pos_of_lt_pi_div_two
  · positivity
  · have : vfov * Real.pi < 180 * Real.pi := by nlinarith
    linarith

/-! ### Rays and raster positions -/

theorem toEye_frame (c : Camera) (h : Orthonormal c.u c.v c.w) (a b z : ℝ) : toEye c (a • c.u + b • c.v + z • c.w) = ⟨a, b, z⟩ := by
  obtain ⟨_, f2, f3, f4⟩ := C32_frame c.u c.v c.w ⟨a, b, z⟩ ⟨a, b, z⟩ h
  unfold toEye
  rw [V3.dot_comm c.u, V3.dot_comm c.v, V3.dot_comm c.w, f2, f3, f4]

/-- C47. The primary ray at a raster position is the unit vector towards that point of the screen. -/
theorem C47_primary (c : Camera) (h : c.Proper) (x y : ℝ) : ∃ d, primaryRay c x y = some d ∧ V3.dot d d = 1 ∧ c.Towards d x y := by
  have hne : (⟨c.aspect * c.tf * (2 * x - 1), c.tf * (2 * y - 1), -1⟩ : V3 ℝ) ≠ 0 := by
    intro e; have := congrArg V3.z e; simp at this
  obtain ⟨e, he⟩ := normalize_of_ne hne
  obtain ⟨e1, k, hk, hke⟩ := normalize_unit he
  refine ⟨e.x • c.u + e.y • c.v + e.z • c.w, by simp only [primaryRay, he, Option.map_some], by rw [(C32_frame c.u c.v c.w e e h.1).1, e1], k, hk, ?_⟩
  have hx := congrArg V3.x hke
  have hy := congrArg V3.y hke
  have hz := congrArg V3.z hke
  simp only [V3.smul_x, V3.smul_y, V3.smul_z] at hx hy hz
  unfold Camera.screen
  rw [smul_add, smul_add, smul_smul, smul_smul, smul_smul, ← hx, ← hy, ← hz, neg_smul, one_smul, ← sub_eq_add_neg]

theorem towards_eye (c : Camera) (h : c.Proper) (d : V3 ℝ) (x y : ℝ) (ht : c.Towards d x y) : (toEye c d).z < 0 ∧
    -(toEye c d).x / (toEye c d).z / c.tf / c.aspect * (1 / 2) + 1 / 2 = x ∧ -(toEye c d).y / (toEye c d).z / c.tf * (1 / 2) + 1 / 2 = y := by
  obtain ⟨k, hk, hd⟩ := ht
  obtain ⟨ho, htf, ha⟩ := h
  have e : toEye c (k • d) = ⟨c.aspect * c.tf * (2 * x - 1), c.tf * (2 * y - 1), -1⟩ := by
    rw [hd]
    have := toEye_frame c ho (c.aspect * c.tf * (2 * x - 1)) (c.tf * (2 * y - 1)) (-1)
    rw [neg_smul, one_smul, ← sub_eq_add_neg] at this
    exact this
  have ex : k * (toEye c d).x = c.aspect * c.tf * (2 * x - 1) := by have := congrArg V3.x e; simpa [toEye, V3.dot_smul_right] using this
  have ey : k * (toEye c d).y = c.tf * (2 * y - 1) := by have := congrArg V3.y e; simpa [toEye, V3.dot_smul_right] using this
  have ez : k * (toEye c d).z = -1 := by have := congrArg V3.z e; simpa [toEye, V3.dot_smul_right] using this
  have hz : (toEye c d).z < 0 := by by_contra hc; nlinarith [not_lt.mp hc]
  refine ⟨hz, ?_, ?_⟩
  · have : (toEye c d).x = -(c.aspect * c.tf * (2 * x - 1)) * (toEye c d).z := by
      have : k * (toEye c d).x = k * (-(c.aspect * c.tf * (2 * x - 1)) * (toEye c d).z) := by rw [ex]; linear_combination (c.aspect * c.tf * (2 * x - 1)) * ez
      exact mul_left_cancel₀ hk.ne' this
    rw [this]
    have := hz.ne
    field_simp; ring
  · have : (toEye c d).y = -(c.tf * (2 * y - 1)) * (toEye c d).z := by
      have : k * (toEye c d).y = k * (-(c.tf * (2 * y - 1)) * (toEye c d).z) := by rw [ey]; linear_combination (c.tf * (2 * y - 1)) * ez
      exact mul_left_cancel₀ hk.ne' this
    rw [this]
    have := hz.ne
    field_simp; ring

open Classical in
/-- C47. The raster position of a direction towards screen point (x, y) is (x, y) if that lies in the unit square, and there is none otherwise. -/
theorem C47_raster (c : Camera) (h : c.Proper) (d : V3 ℝ) (x y : ℝ) (ht : c.Towards d x y) :
    rasterPosition c d = if (0 ≤ x ∧ x ≤ 1) ∧ (0 ≤ y ∧ y ≤ 1) then some (x, y) else none := by
  obtain ⟨hz, hx, hy⟩ := towards_eye c h d x y ht
  unfold rasterPosition
  simp only [ge_iff_le, not_le.mpr hz, if_false, hx, hy]
  by_cases hc : (0 ≤ x ∧ x ≤ 1) ∧ (0 ≤ y ∧ y ≤ 1)
  · rw [if_pos hc, if_neg]
    push Not
    exact ⟨hc.1.1, hc.1.2, hc.2.1, hc.2.2⟩
  · rw [if_neg hc, if_pos]
    by_contra hn
    push Not at hn
    exact hc ⟨⟨hn.1, hn.2.1⟩, hn.2.2⟩

/-- C47. The raster position of the primary ray at (x, y) in the unit square is (x, y). -/
theorem C47_round_trip (c : Camera) (h : c.Proper) (x y : ℝ) (hx : 0 ≤ x ∧ x ≤ 1) (hy : 0 ≤ y ∧ y ≤ 1) : (primaryRay c x y).bind (rasterPosition c) = some (x, y) := by
  obtain ⟨d, e, _, ht⟩ := C47_primary c h x y
  rw [e, Option.bind_some, C47_raster c h d x y ht, if_pos ⟨hx, hy⟩]

/-- C47. Every unit direction with a raster position is the direction of the primary ray at that position, which lies in the unit square. -/
theorem C47_inverse (c : Camera) (h : c.Proper) (d : V3 ℝ) (hd : V3.dot d d = 1) (x y : ℝ) (hr : rasterPosition c d = some (x, y)) :
    primaryRay c x y = some d ∧ (0 ≤ x ∧ x ≤ 1) ∧ (0 ≤ y ∧ y ≤ 1) := by
  obtain ⟨ho, htf, ha⟩ := id h
  have hz : (toEye c d).z < 0 := by
    unfold rasterPosition at hr
    simp only at hr
    split at hr
    · cases hr
    · next hz => exact not_le.mp hz
  unfold rasterPosition at hr
  simp only [ge_iff_le, not_le.mpr hz, if_false] at hr
  split at hr
  · cases hr
  · next hc =>
    push Not at hc
    obtain ⟨hx, hy⟩ := Prod.mk.inj (Option.some.inj hr)
    rw [hx, hy] at hc
    refine ⟨?_, ⟨hc.1, hc.2.1⟩, ⟨hc.2.2.1, hc.2.2.2⟩⟩
    have htow : c.Towards d x y := by
      refine ⟨-1 / (toEye c d).z, by rw [div_pos_iff]; right; exact ⟨by norm_num, hz⟩, ?_⟩
      have hdec := frame_complete c.u c.v c.w ho d
      have hz0 := hz.ne
      have ex : -1 / (toEye c d).z * V3.dot d c.u = c.aspect * c.tf * (2 * x - 1) := by
        rw [← hx, V3.dot_comm d]; show -1 / (toEye c d).z * (toEye c d).x = _; field_simp; ring
      have ey : -1 / (toEye c d).z * V3.dot d c.v = c.tf * (2 * y - 1) := by
        rw [← hy, V3.dot_comm d]; show -1 / (toEye c d).z * (toEye c d).y = _; field_simp; ring
      have ez : -1 / (toEye c d).z * V3.dot d c.w = -1 := by
        rw [V3.dot_comm d]; show -1 / (toEye c d).z * (toEye c d).z = _; field_simp
      refine (congrArg (fun v => (-1 / (toEye c d).z) • v) hdec).trans ?_
      unfold Camera.screen
      rw [smul_add, smul_add, smul_smul, smul_smul, smul_smul, ex, ey, ez, neg_smul, one_smul, ← sub_eq_add_neg]
    obtain ⟨d', e, hd', ht'⟩ := C47_primary c h x y
    rw [e]
    congr 1
    obtain ⟨k, hk, h1⟩ := htow
    obtain ⟨k', hk', h2⟩ := ht'
    have h3 : k' • d' = k • d := by rw [h1, h2]
    have hkk : k' = k := by
      have : k' ^ 2 = k ^ 2 := by
        have := congrArg (fun v => V3.dot v v) h3
        simp only [V3.dot_smul_left, V3.dot_smul_right, hd, hd'] at this
        nlinarith
      exact (pow_left_inj₀ hk'.le hk.le two_ne_zero).mp this
    rw [hkk] at h3
    have := congrArg (fun v => (1 / k) • v) h3
    simpa [smul_smul, hk.ne'] using this

/-- C47. Directions that do not point forward have no raster position. -/
theorem C47_behind (c : Camera) (d : V3 ℝ) (h : 0 ≤ V3.dot c.w d) : rasterPosition c d = none := by
  unfold rasterPosition toEye
  simp [h]

/-- The exact reason for the absence of a raster position: not pointing forward, or towards a screen point outside of the unit square. -/
theorem C47_none (c : Camera) (h : c.Proper) (d : V3 ℝ) (hr : rasterPosition c d = none) : 0 ≤ V3.dot c.w d ∨ ∃ x y, c.Towards d x y ∧ ¬ ((0 ≤ x ∧ x ≤ 1) ∧ (0 ≤ y ∧ y ≤ 1)) := by
  obtain ⟨ho, htf, ha⟩ := id h
  by_cases hz : 0 ≤ V3.dot c.w d
  · exact .inl hz
  · right
    have hz' : (toEye c d).z < 0 := not_le.mp hz
    have hz0 := hz'.ne
    set x := -(toEye c d).x / (toEye c d).z / c.tf / c.aspect * (1 / 2) + 1 / 2 with hx
    set y := -(toEye c d).y / (toEye c d).z / c.tf * (1 / 2) + 1 / 2 with hy
    have htow : c.Towards d x y := by
      refine ⟨-1 / (toEye c d).z, by rw [div_pos_iff]; right; exact ⟨by norm_num, hz'⟩, ?_⟩
      have hdec := frame_complete c.u c.v c.w ho d
      have ex : -1 / (toEye c d).z * V3.dot d c.u = c.aspect * c.tf * (2 * x - 1) := by
        rw [hx, V3.dot_comm d]; show -1 / (toEye c d).z * (toEye c d).x = _; field_simp; ring
      have ey : -1 / (toEye c d).z * V3.dot d c.v = c.tf * (2 * y - 1) := by
        rw [hy, V3.dot_comm d]; show -1 / (toEye c d).z * (toEye c d).y = _; field_simp; ring
      have ez : -1 / (toEye c d).z * V3.dot d c.w = -1 := by
        rw [V3.dot_comm d]; show -1 / (toEye c d).z * (toEye c d).z = _; field_simp
      refine (congrArg (fun v => (-1 / (toEye c d).z) • v) hdec).trans ?_
      unfold Camera.screen
      rw [smul_add, smul_add, smul_smul, smul_smul, smul_smul, ex, ey, ez, neg_smul, one_smul, ← sub_eq_add_neg]
    refine ⟨x, y, htow, fun hc => ?_⟩
    rw [C47_raster c h d x y htow, if_pos hc] at hr
    cases hr

/-! ### C46 for the camera -/

/-- C46. Camera rays: the direction has unit length, the weight is one, and density and importance agree and are positive. -/
theorem C46_camera_ray (c : Camera) (h : c.Proper) (junk : V3 ℝ) (us : RayU) (hu : us.Valid) :
    ∃ d p, camSampleRay c junk us = .ok (makeDegenerated c.position junk) d (V3.all 1) ∧ V3.dot d d = 1 ∧ camPdfDirection c d = some p ∧ 0 < p ∧ camEval c d = some (p • V3.all 1) := by
  obtain ⟨d, e, hd, ht⟩ := C47_primary c h us.ud0 us.ud1
  obtain ⟨hz, _⟩ := towards_eye c h d _ _ ht
  have hr := C47_raster c h d _ _ ht
  rw [if_pos ⟨⟨hu.2.2.2.1.1, hu.2.2.2.1.2.le⟩, ⟨hu.2.2.2.2.1, hu.2.2.2.2.2.le⟩⟩] at hr
  obtain ⟨_, htf, ha⟩ := h
  have hA : c.tf * c.tf * c.aspect * 4 ≠ 0 := by positivity
  have hJ : camJ c d = some (1 / -(toEye c d).z * (1 / -(toEye c d).z) * (1 / -(toEye c d).z) / (c.tf * c.tf * c.aspect * 4)) := by
    simp only [camJ, divF, neg_eq_zero, hz.ne, if_false, hA, Option.bind_eq_bind, Option.bind_some]
  refine ⟨d, _, by simp only [camSampleRay, e], hd, by simp only [camPdfDirection, hr, hJ]; rfl, ?_, by simp only [camEval, hr, hJ, Option.map_some]; congr 1; ext <;> simp [V3.all]⟩
  have : 0 < -(toEye c d).z := by linarith
  positivity

/-- C46 (partial). Connecting a point to the camera: if the point projects into the frame and the geometry term does not vanish, weight · density = importance. Missing: points outside of the frame (next theorem). -/
theorem C46_camera_direct_partial (c : Camera) (h : c.Proper) (junk : V3 ℝ) (g : Geom) (hf : g.infinite = false) (hne : g.p ≠ c.position) :
    ∃ wo, normalize (g.p - c.position) = some wo ∧ V3.dot wo wo = 1 ∧ ((rasterPosition c wo).isSome → ∃ G, geometryTerm g (makeDegenerated c.position junk) = some G ∧
      (G = 0 → camSampleDirect c junk g = .fail) ∧
      (G ≠ 0 → ∃ C p, camSampleDirect c junk g = .ok (makeDegenerated c.position junk) wo C ∧ camPdfDirect g (makeDegenerated c.position junk) = some p ∧ 0 < p ∧ camEval c wo = some (p • C))) := by
  have hne' : g.p - c.position ≠ 0 := sub_ne_zero.mpr hne
  obtain ⟨wo, hw⟩ := normalize_of_ne hne'
  refine ⟨wo, hw, (normalize_unit hw).1, fun hr => ?_⟩
  obtain ⟨⟨x, y⟩, hr⟩ := Option.isSome_iff_exists.mp hr
  have hz : (toEye c wo).z < 0 := by
    unfold rasterPosition at hr
    simp only at hr
    split at hr
    · cases hr
    · next hz => exact not_le.mp hz
  obtain ⟨G, hG⟩ : ∃ G, geometryTerm g (makeDegenerated c.position junk) = some G := by
    unfold geometryTerm
    simp only [hf, makeDegenerated, Bool.false_and, Bool.false_eq_true, if_false, Bool.or_self]
    split
    · next h0 => exact (hne' (by rw [dot_sub_swap] at h0; exact dot_self_zero h0)).elim
    · exact ⟨_, rfl⟩
  obtain ⟨_, htf, ha⟩ := h
  have hA : c.tf * c.tf * c.aspect * 4 ≠ 0 := by positivity
  obtain ⟨J, hJ⟩ : ∃ J, camJ c wo = some J := ⟨_, by simp only [camJ, divF, neg_eq_zero, hz.ne, if_false, hA, Option.bind_eq_bind, Option.bind_some]; rfl⟩
  refine ⟨G, hG, fun h0 => ?_, fun h0 => ?_⟩
  · simp [camSampleDirect, hf, hw, hJ, camPdfDirect, hG, overG, h0, rayOrFail_zero]
  · have hGp := lt_of_le_of_ne (C43_nonneg _ _ _ hG) (Ne.symm h0)
    obtain ⟨C, eC, hC⟩ := rayOrFail_pos (makeDegenerated c.position junk) wo (V3.all J) (1 / G) (by positivity)
    have hp : camPdfDirect g (makeDegenerated c.position junk) = some (1 / G) := by simp [camPdfDirect, hf, hG, overG, h0]
    refine ⟨C, 1 / G, ?_, hp, by positivity, by simp only [camEval, hr, hJ, Option.map_some, hC]⟩
    simp only [camSampleDirect, hf, Bool.false_eq_true, if_false, hw, hJ, hp]; exact eC

/-- C46 fails for connections to the camera: a point in front of the camera but outside of the frame is connected with a non-zero weight although the importance is zero. -/
theorem C46_negation_camera_direct (c : Camera) (h : c.Proper) (junk : V3 ℝ) (x y t : ℝ) (hout : ¬ ((0 ≤ x ∧ x ≤ 1) ∧ (0 ≤ y ∧ y ≤ 1))) (ht : 0 < t) :
    let g := makeDegenerated (c.position + t • c.screen x y) junk
    ∃ wo C p, camSampleDirect c junk g = .ok (makeDegenerated c.position junk) wo C ∧ camPdfDirect g (makeDegenerated c.position junk) = some p ∧ p • C ≠ V3.all 0 ∧ camEval c wo = some (V3.all 0) := by
  intro g
  have hsc : c.screen x y ≠ 0 := by
    intro e
    have h1 : toEye c (c.screen x y) = ⟨c.aspect * c.tf * (2 * x - 1), c.tf * (2 * y - 1), -1⟩ := by
      have := toEye_frame c h.1 (c.aspect * c.tf * (2 * x - 1)) (c.tf * (2 * y - 1)) (-1)
      rw [neg_smul, one_smul, ← sub_eq_add_neg] at this
      exact this
    rw [e] at h1
    have := congrArg V3.z h1
    simp [toEye, V3.dot] at this
  have hsub : g.p - c.position = t • c.screen x y := by show c.position + t • c.screen x y - c.position = _; abel
  have hne' : g.p - c.position ≠ 0 := by
    rw [hsub]; exact smul_ne_zero ht.ne' hsc
  obtain ⟨wo, hw⟩ := normalize_of_ne hne'
  obtain ⟨w1, k, hk, hkw⟩ := normalize_unit hw
  have htow : c.Towards wo x y := by
    refine ⟨1 / t * k, by positivity, ?_⟩
    rw [mul_smul, ← hkw, hsub, smul_smul, one_div_mul_cancel ht.ne', one_smul]
  obtain ⟨hz, _⟩ := towards_eye c h wo x y htow
  have hr := C47_raster c h wo x y htow
  rw [if_neg hout] at hr
  obtain ⟨_, htf, ha⟩ := h
  have hA : c.tf * c.tf * c.aspect * 4 ≠ 0 := by positivity
  have hJ : camJ c wo = some (1 / -(toEye c wo).z * (1 / -(toEye c wo).z) * (1 / -(toEye c wo).z) / (c.tf * c.tf * c.aspect * 4)) := by
    simp only [camJ, divF, neg_eq_zero, hz.ne, if_false, hA, Option.bind_eq_bind, Option.bind_some]
  have hJp : 0 < 1 / -(toEye c wo).z * (1 / -(toEye c wo).z) * (1 / -(toEye c wo).z) / (c.tf * c.tf * c.aspect * 4) := by
    have : 0 < -(toEye c wo).z := by linarith
    positivity
  set J := 1 / -(toEye c wo).z * (1 / -(toEye c wo).z) * (1 / -(toEye c wo).z) / (c.tf * c.tf * c.aspect * 4)
  obtain ⟨G, hG, hGp⟩ : ∃ G, geometryTerm g (makeDegenerated c.position junk) = some G ∧ 0 < G := by
    have hL : V3.dot (c.position - g.p) (c.position - g.p) ≠ 0 := by
      intro h0; exact hne' (by rw [dot_sub_swap] at h0; exact dot_self_zero h0)
    have hLp := dot_self_pos hL
    refine ⟨1 * 1 / V3.dot (c.position - g.p) (c.position - g.p), ?_, by positivity⟩
    unfold geometryTerm
    have e1 : g.infinite = false := rfl
    have e2 : g.degenerated = true := rfl
    simp only [e1, e2, makeDegenerated, Bool.false_and, Bool.false_eq_true, if_false, Bool.or_self, Bool.true_or, if_true, if_neg hL]
  obtain ⟨C, eC, hC⟩ := rayOrFail_pos (makeDegenerated c.position junk) wo (V3.all J) (1 / G) (by positivity)
  have hp : camPdfDirect g (makeDegenerated c.position junk) = some (1 / G) := by
    have e1 : g.infinite = false := rfl
    simp [camPdfDirect, e1, hG, overG, hGp.ne']
  refine ⟨wo, C, 1 / G, ?_, hp, ?_, by simp only [camEval, hr]⟩
  · have e1 : g.infinite = false := rfl
    simp only [camSampleDirect, e1, Bool.false_eq_true, if_false, hw, hJ, hp]; exact eC
  · rw [hC]
    intro e
    have := congrArg V3.x e
    simp [V3.all] at this
    exact hJp.ne' this

/-- A concrete camera. -/
noncomputable def exCam : Camera := ⟨0, ⟨1, 0, 0⟩, ⟨0, 1, 0⟩, ⟨0, 0, 1⟩, 1, 2⟩
example : exCam.Proper := by
  refine ⟨⟨?_, ?_, ?_, ?_, ?_, ?_, ?_⟩, by norm_num [exCam], by norm_num [exCam]⟩ <;> simp [exCam, V3.dot, V3.cross]
example : V3.cross (⟨0, 1, 0⟩ : V3 ℝ) (⟨0, 0, 5⟩ - ⟨0, 0, 0⟩) ≠ 0 := by
  intro e; have := congrArg V3.x e; simp [V3.cross] at this

end LM.Light
