import Verif.Model.CameraView
import Verif.Props.C47_Camera
/-
  C95: the view and projection matrices of the camera show what the camera renders.
-/
namespace LM.CameraView
open LM LM.MathF LM.Surface LM.Material LM.Light LM.Accel

/-! ### Specification -/

/-- The normalized device coordinates which a program that draws with the two matrices gives to the point p of the scene: (x, y, z) divided by w, if w is positive (in front of the viewer). -/
def Drawn (view proj : M4) (p : V3 ℝ) (x y z : ℝ) : Prop :=
  let q := proj.mul (view.mul ⟨p.x, p.y, p.z, 1⟩)
  0 < q.w ∧ q.x = x * q.w ∧ q.y = y * q.w ∧ q.z = z * q.w

/-- The point p is visible on the screen of a program that draws with the two matrices. -/
def OnScreen (view proj : M4) (p : V3 ℝ) : Prop := ∃ x y z, Drawn view proj p x y z ∧ -1 ≤ x ∧ x ≤ 1 ∧ -1 ≤ y ∧ y ≤ 1

/-- The camera was constructed from position, look-at point and up vector with a field of view between 0 and 180 degrees, and the aspect ratio may have been changed afterwards. -/
def Usual (c : Pinhole) : Prop :=
  ∃ jc ju c0 a0 position center up vfov, construct jc ju ⟨none, some position, some center, some up, some vfov, some a0⟩ = .ret c0 ∧ 0 < vfov ∧ vfov < 180 ∧ (c = c0 ∨ ∃ a, c = setAspectRatio c0 a) ∧ 0 < c.aspect

/-! ### Lemmas -/

theorem normalize_unique {v w : V3 ℝ} {k : ℝ} (hk : 0 < k) (hw : V3.dot w w = 1) (h : v = k • w) : normalize v = some w := by
  have hv : v ≠ 0 := by
    rintro rfl
    have : V3.dot (k • w) (k • w) = 0 := by rw [← h]; simp [V3.dot]
    rw [V3.dot_smul_left, V3.dot_smul_right, hw] at this
    nlinarith
  obtain ⟨w', hw'⟩ := normalize_of_ne hv
  obtain ⟨h1, l, hl, e⟩ := normalize_unit hw'
  rw [hw']
  congr 1
  have h2 : V3.dot v v = k * k := by rw [h, V3.dot_smul_left, V3.dot_smul_right, hw]; ring
  have h3 : V3.dot v v = l * l := by rw [e, V3.dot_smul_left, V3.dot_smul_right, h1]; ring
  have hkl : k = l := by nlinarith
  subst hkl
  rw [h] at e
  ext
  · have := congrArg V3.x e; simp only [V3.smul_x] at this; exact (mul_left_cancel₀ hk.ne' this).symm
  · have := congrArg V3.y e; simp only [V3.smul_y] at this; exact (mul_left_cancel₀ hk.ne' this).symm
  · have := congrArg V3.z e; simp only [V3.smul_z] at this; exact (mul_left_cancel₀ hk.ne' this).symm

/-- What construct does with usual properties. -/
theorem construct_usual {jc ju position center up : V3 ℝ} {vfov aspect : ℝ} {c : Pinhole} (h : construct jc ju ⟨none, some position, some center, some up, some vfov, some aspect⟩ = .ret c) :
    Orthonormal c.u c.v c.w ∧ (∃ l : ℝ, 0 < l ∧ V3.cross up c.w = l • c.u) ∧ c.v = V3.cross c.w c.u ∧ c.position = position ∧ c.center = center ∧ c.up = up ∧ c.vfov = vfov ∧ c.tf = tfOf vfov ∧ c.aspect = aspect ∧
      lookAt position center up (tfOf vfov) aspect = some c.toCamera := by
  simp only [construct, frame] at h
  cases hw : normalize (position - center) with
  | none => simp [hw] at h
  | some w =>
    simp only [hw] at h
    cases hu : normalize (V3.cross up w) with
    | none => simp [hu] at h
    | some u =>
      simp only [hu, Out.ret.injEq] at h
      subst h
      have hl : lookAt position center up (tfOf vfov) aspect = some ⟨position, u, V3.cross w u, w, tfOf vfov, aspect⟩ := by
        simp only [lookAt, hw, hu, Option.bind_eq_bind, Option.bind_some]
        rfl
      obtain ⟨w1, k, hk, hwk⟩ := normalize_unit hw
      obtain ⟨u1, l, hl', huk⟩ := normalize_unit hu
      have hne : V3.cross up (position - center) ≠ 0 := by
        rw [hwk]
        intro e
        have e1 : V3.cross up (k • w) = k • (l • u) := by rw [← huk]; ext <;> simp [V3.cross] <;> ring
        rw [e1] at e
        have e2 : V3.dot (k • (l • u)) (k • (l • u)) = 0 := by rw [e]; simp [V3.dot]
        rw [V3.dot_smul_left, V3.dot_smul_right, V3.dot_smul_left, V3.dot_smul_right, u1] at e2
        have : 0 < k * (k * (l * (l * 1))) := by positivity
        linarith
      obtain ⟨c', hc', ho, _⟩ := C47_look_at position center up (tfOf vfov) aspect hne
      rw [hl] at hc'
      obtain rfl := Option.some.inj hc'
      exact ⟨ho, ⟨l, hl', huk⟩, rfl, rfl, rfl, rfl, rfl, rfl, rfl, hl⟩

theorem Usual.facts {c : Pinhole} (h : Usual c) : c.Proper ∧ c.tf = tfOf c.vfov ∧ (∃ l : ℝ, 0 < l ∧ V3.cross c.up c.w = l • c.u) ∧ c.v = V3.cross c.w c.u ∧ 0 < c.aspect := by
  obtain ⟨jc, ju, c0, a0, position, center, up, vfov, hc, h0, h1, he, ha⟩ := h
  obtain ⟨p1, p2, p3, p4, p5, p6, p7, p8, p9, _⟩ := construct_usual hc
  rw [← p6] at p2
  have htf : 0 < c0.tf := by rw [p8]; exact C47_fov vfov h0 h1
  rcases he with rfl | ⟨a, rfl⟩
  · exact ⟨⟨p1, htf, ha⟩, by rw [p8, p7], p2, p3, ha⟩
  · exact ⟨⟨p1, htf, ha⟩, by show c0.tf = tfOf c0.vfov; rw [p8, p7], p2, p3, ha⟩

theorem view_eq {c : Pinhole} (h : Usual c) : ∃ m, viewMatrix c = some m ∧ ∀ p : V3 ℝ, m.mul ⟨p.x, p.y, p.z, 1⟩ = ⟨V3.dot c.u (p - c.position), V3.dot c.v (p - c.position), V3.dot c.w (p - c.position), 1⟩ := by
  obtain ⟨⟨ho, _, _⟩, _, ⟨l, hl, hu⟩, hv, _⟩ := h.facts
  obtain ⟨u1, v1, w1, huv, huw, hvw, hcr⟩ := ho
  have hf : normalize (c.position - c.w - c.position) = some (-c.w) := normalize_unique (k := 1) one_pos (by simp only [V3.dot, V3.neg_x, V3.neg_y, V3.neg_z] at *; linarith) (by ext <;> simp)
  have hs : normalize (V3.cross (-c.w) c.up) = some c.u := normalize_unique hl u1 (by rw [← hu]; ext <;> simp [V3.cross] <;> ring)
  have hup : V3.cross c.u (-c.w) = c.v := by rw [hv]; ext <;> simp [V3.cross] <;> ring
  refine ⟨_, by simp only [viewMatrix, glmLookAt, hf, hs]; rfl, fun p => ?_⟩
  rw [hup]
  ext <;> simp [M4.mul, V3.dot] <;> ring

theorem proj_eq {c : Pinhole} (h : Usual c) : projectionMatrix c = some ⟨⟨1 / (c.aspect * c.tf), 0, 0, 0⟩, ⟨0, 1 / c.tf, 0, 0⟩, ⟨0, 0, -(10000 + 1 / 100) / (10000 - 1 / 100), -1⟩,
    ⟨0, 0, -(2 * 10000 * (1 / 100)) / (10000 - 1 / 100), 0⟩⟩ := by
  obtain ⟨⟨_, htf, ha⟩, ht, _⟩ := h.facts
  have e : Real.tan (c.vfov * (Real.pi / 180) / 2) = c.tf := by
    rw [ht, tfOf]
    congr 1
    ring
  have hcond : ¬ (c.aspect * c.tf = 0 ∨ c.tf = 0 ∨ (10000 : ℝ) - 1 / 100 = 0) := by
    rintro (h1 | h1 | h1)
    · exact (mul_pos ha htf).ne' h1
    · exact htf.ne' h1
    · norm_num at h1
  simp only [projectionMatrix, glmPerspective, e]
  rw [if_neg hcond]

/-- What is drawn, in terms of the camera's own frame. -/
theorem drawn_eye {c : Pinhole} (h : Usual c) : ∃ view proj, viewMatrix c = some view ∧ projectionMatrix c = some proj ∧ ∀ p x y z, Drawn view proj p x y z ↔
    (V3.dot c.w (p - c.position) < 0 ∧ V3.dot c.u (p - c.position) = -(c.aspect * c.tf * x) * V3.dot c.w (p - c.position) ∧ V3.dot c.v (p - c.position) = -(c.tf * y) * V3.dot c.w (p - c.position) ∧
      z * -V3.dot c.w (p - c.position) = -(10000 + 1 / 100) / (10000 - 1 / 100) * V3.dot c.w (p - c.position) + -(2 * 10000 * (1 / 100)) / (10000 - 1 / 100)) := by
  obtain ⟨m, hm, hv⟩ := view_eq h
  obtain ⟨⟨_, htf, ha⟩, _⟩ := h.facts
  refine ⟨m, _, hm, proj_eq h, fun p x y z => ?_⟩
  have hA : c.aspect * c.tf ≠ 0 := (mul_pos ha htf).ne'
  unfold Drawn
  rw [hv p]
  simp only [M4.mul, zero_mul, add_zero, zero_add, mul_one]
  constructor
  · rintro ⟨q1, q2, q3, q4⟩
    refine ⟨by linarith, ?_, ?_, by linarith⟩
    · field_simp at q2
      linarith
    · field_simp at q3
      linarith
  · rintro ⟨q1, q2, q3, q4⟩
    refine ⟨by linarith, ?_, ?_, by linarith⟩
    · rw [q2]; field_simp
    · rw [q3]; field_simp

theorem towards_iff {c : Camera} (h : c.Proper) (d : V3 ℝ) (x y : ℝ) :
    c.Towards d x y ↔ V3.dot c.w d < 0 ∧ V3.dot c.u d = -(c.aspect * c.tf * (2 * x - 1)) * V3.dot c.w d ∧ V3.dot c.v d = -(c.tf * (2 * y - 1)) * V3.dot c.w d := by
  have h0 := h
  obtain ⟨⟨u1, v1, w1, huv, huw, hvw, hcr⟩, htf, ha⟩ := h
  constructor
  · rintro ⟨k, hk, e⟩
    have eu : k * V3.dot c.u d = c.aspect * c.tf * (2 * x - 1) := by
      have : V3.dot c.u (k • d) = V3.dot c.u (c.screen x y) := by rw [e]
      rw [V3.dot_smul_right] at this
      rw [this, Camera.screen]
      simp only [V3.dot, V3.sub_x, V3.sub_y, V3.sub_z, V3.add_x, V3.add_y, V3.add_z, V3.smul_x, V3.smul_y, V3.smul_z] at *
      linear_combination (c.aspect * c.tf * (2 * x - 1)) * u1 + (c.tf * (2 * y - 1)) * huv - huw
    have ev : k * V3.dot c.v d = c.tf * (2 * y - 1) := by
      have : V3.dot c.v (k • d) = V3.dot c.v (c.screen x y) := by rw [e]
      rw [V3.dot_smul_right] at this
      rw [this, Camera.screen]
      simp only [V3.dot, V3.sub_x, V3.sub_y, V3.sub_z, V3.add_x, V3.add_y, V3.add_z, V3.smul_x, V3.smul_y, V3.smul_z] at *
      linear_combination (c.aspect * c.tf * (2 * x - 1)) * huv + (c.tf * (2 * y - 1)) * v1 - hvw
    have ew : k * V3.dot c.w d = -1 := by
      have : V3.dot c.w (k • d) = V3.dot c.w (c.screen x y) := by rw [e]
      rw [V3.dot_smul_right] at this
      rw [this, Camera.screen]
      simp only [V3.dot, V3.sub_x, V3.sub_y, V3.sub_z, V3.add_x, V3.add_y, V3.add_z, V3.smul_x, V3.smul_y, V3.smul_z] at *
      linear_combination (c.aspect * c.tf * (2 * x - 1)) * huw + (c.tf * (2 * y - 1)) * hvw - w1
    refine ⟨by nlinarith, ?_, ?_⟩
    · apply mul_left_cancel₀ hk.ne'
      rw [eu]
      linear_combination (c.aspect * c.tf * (2 * x - 1)) * ew
    · apply mul_left_cancel₀ hk.ne'
      rw [ev]
      linear_combination (c.tf * (2 * y - 1)) * ew
  · rintro ⟨q1, q2, q3⟩
    refine ⟨-1 / V3.dot c.w d, div_pos_of_neg_of_neg (by norm_num) q1, ?_⟩
    have hdec := frame_complete c.u c.v c.w ⟨u1, v1, w1, huv, huw, hvw, hcr⟩ d
    refine (congrArg (fun v => (-1 / V3.dot c.w d) • v) hdec).trans ?_
    have e1 : -1 / V3.dot c.w d * V3.dot d c.u = c.aspect * c.tf * (2 * x - 1) := by rw [V3.dot_comm d, q2]; field_simp [q1.ne]
    have e2 : -1 / V3.dot c.w d * V3.dot d c.v = c.tf * (2 * y - 1) := by rw [V3.dot_comm d, q3]; field_simp [q1.ne]
    have e3 : -1 / V3.dot c.w d * V3.dot d c.w = -1 := by rw [V3.dot_comm d]; field_simp [q1.ne]
    unfold Camera.screen
    rw [smul_add, smul_add, smul_smul, smul_smul, smul_smul, e1, e2, e3, neg_smul, one_smul, ← sub_eq_add_neg]

/-! ### Theorems -/

/-- C95. Construction with look-at parameters returns if the up vector is not parallel to the viewing direction, and the camera is usual (so the hypothesis of the theorems below is met). -/
theorem C95_constructed (jc ju position center up : V3 ℝ) (vfov aspect : ℝ) (hup : V3.cross up (position - center) ≠ 0) (h0 : 0 < vfov) (h1 : vfov < 180) (ha : 0 < aspect) :
    ∃ c, construct jc ju ⟨none, some position, some center, some up, some vfov, some aspect⟩ = .ret c ∧ Usual c ∧ c.position = position ∧ ∃ k : ℝ, 0 < k ∧ center - position = k • (-c.w) := by
  obtain ⟨c', hl, _, _, _, _, hk, _⟩ := C47_look_at position center up (tfOf vfov) aspect hup
  simp only [lookAt] at hl
  cases hw : normalize (position - center) with
  | none => simp [hw] at hl
  | some w =>
    cases hu : normalize (V3.cross up w) with
    | none => simp [hw, hu] at hl
    | some u =>
      simp [hw, hu] at hl
      have hc : ∃ c, construct jc ju ⟨none, some position, some center, some up, some vfov, some aspect⟩ = .ret c ∧ c.w = w ∧ c.position = position ∧ c.aspect = aspect := by
        simp only [construct, frame, hw, hu]
        exact ⟨_, rfl, rfl, rfl, rfl⟩
      obtain ⟨c, hc, ew, ep, ea⟩ := hc
      refine ⟨c, hc, ⟨jc, ju, c, aspect, position, center, up, vfov, hc, h0, h1, .inl rfl, by rw [ea]; exact ha⟩, ep, ?_⟩
      rw [ew]
      subst hl
      exact hk

/-- C95. Drawing with the view and projection matrices shows every point of the scene where the camera renders it: the point of raster position (x, y), at any distance, has the normalized device coordinates (2x - 1, 2y - 1), and no
    others; points that have none lie behind the viewer. -/
theorem C95_drawn (c : Pinhole) (h : Usual c) : ∃ view proj, viewMatrix c = some view ∧ projectionMatrix c = some proj ∧
    ∀ p x y, (∃ z, Drawn view proj p (2 * x - 1) (2 * y - 1) z) ↔ c.Towards (p - c.position) x y := by
  obtain ⟨view, proj, hv, hp, hd⟩ := drawn_eye h
  refine ⟨view, proj, hv, hp, fun p x y => ?_⟩
  rw [towards_iff h.facts.1]
  constructor
  · rintro ⟨z, hz⟩
    obtain ⟨q1, q2, q3, _⟩ := (hd _ _ _ _).mp hz
    exact ⟨q1, q2, q3⟩
  · rintro ⟨q1, q2, q3⟩
    refine ⟨(-(10000 + 1 / 100) / (10000 - 1 / 100) * V3.dot c.w (p - c.position) + -(2 * 10000 * (1 / 100)) / (10000 - 1 / 100)) / -V3.dot c.w (p - c.position), (hd _ _ _ _).mpr ⟨q1, q2, q3, ?_⟩⟩
    rw [div_mul_cancel₀]
    linarith [q1.ne]

/-- C95. A point is on the screen of such a program exactly if the camera has a raster position for it, and then that is where it is. -/
theorem C95_raster (c : Pinhole) (h : Usual c) : ∃ view proj, viewMatrix c = some view ∧ projectionMatrix c = some proj ∧
    ∀ p, (OnScreen view proj p ↔ ∃ r, rasterPosition c.toCamera (p - c.position) = some r) ∧
      ∀ x y, rasterPosition c.toCamera (p - c.position) = some (x, y) → ∃ z, Drawn view proj p (2 * x - 1) (2 * y - 1) z := by
  obtain ⟨view, proj, hv, hp, hd⟩ := C95_drawn c h
  have hpr := h.facts.1
  have key : ∀ p x y, rasterPosition c.toCamera (p - c.position) = some (x, y) → c.Towards (p - c.position) x y := by
    intro p x y hr
    have hz : ¬ 0 ≤ V3.dot c.w (p - c.position) := fun hz => by rw [C47_behind _ _ hz] at hr; cases hr
    have hz' : V3.dot c.w (p - c.position) < 0 := not_le.mp hz
    obtain ⟨_, htf, ha⟩ := hpr
    rw [towards_iff h.facts.1]
    unfold rasterPosition toEye at hr
    simp only [ge_iff_le, hz, if_false] at hr
    split at hr
    · cases hr
    · obtain ⟨rfl, rfl⟩ := Prod.mk.inj (Option.some.inj hr)
      refine ⟨hz', ?_, ?_⟩
      · field_simp [hz'.ne]; ring
      · field_simp [hz'.ne]; ring
  refine ⟨view, proj, hv, hp, fun p => ⟨⟨?_, ?_⟩, fun x y hr => (hd p x y).mpr (key p x y hr)⟩⟩
  · rintro ⟨x, y, z, hdr, x1, x2, y1, y2⟩
    have ht := (hd p ((x + 1) / 2) ((y + 1) / 2)).mp ⟨z, by rwa [show 2 * ((x + 1) / 2) - 1 = x by ring, show 2 * ((y + 1) / 2) - 1 = y by ring]⟩
    rw [C47_raster _ hpr _ _ _ ht, if_pos ⟨⟨by linarith, by linarith⟩, ⟨by linarith, by linarith⟩⟩]
    exact ⟨_, rfl⟩
  · rintro ⟨⟨x, y⟩, hr⟩
    have ht := key p x y hr
    obtain ⟨z, hz⟩ := (hd p x y).mpr ht
    have hr' := C47_raster _ hpr _ _ _ ht
    rw [hr] at hr'
    by_cases hc : (0 ≤ x ∧ x ≤ 1) ∧ 0 ≤ y ∧ y ≤ 1
    · exact ⟨_, _, z, hz, by linarith [hc.1.1], by linarith [hc.1.2], by linarith [hc.2.1], by linarith [hc.2.2]⟩
    · rw [if_neg hc] at hr'
      cases hr'

/-- C95. The depth of a drawn point lies between -1 and 1 exactly if its distance along the viewing axis lies between 0.01 and 10000, and nearer points have smaller depth. -/
theorem C95_depth (c : Pinhole) (h : Usual c) : ∃ view proj, viewMatrix c = some view ∧ projectionMatrix c = some proj ∧
    (∀ p x y z, Drawn view proj p x y z → ((-1 ≤ z ∧ z ≤ 1) ↔ (1 / 100 ≤ -V3.dot c.w (p - c.position) ∧ -V3.dot c.w (p - c.position) ≤ 10000))) ∧
    ∀ p x y z p' x' y' z', Drawn view proj p x y z → Drawn view proj p' x' y' z' → (z < z' ↔ -V3.dot c.w (p - c.position) < -V3.dot c.w (p' - c.position)) := by
  obtain ⟨view, proj, hv, hp, hd⟩ := drawn_eye h
  have key : ∀ p x y z, Drawn view proj p x y z → 0 < -V3.dot c.w (p - c.position) ∧ z * -V3.dot c.w (p - c.position) * 999999 = 1000001 * -V3.dot c.w (p - c.position) - 20000 := by
    intro p x y z hz
    obtain ⟨q1, _, _, q4⟩ := (hd _ _ _ _).mp hz
    refine ⟨by linarith, ?_⟩
    rw [q4]
    ring
  refine ⟨view, proj, hv, hp, fun p x y z hz => ?_, fun p x y z p' x' y' z' hz hz' => ?_⟩
  · obtain ⟨h1, h2⟩ := key _ _ _ _ hz
    generalize -V3.dot c.w (p - c.position) = s at *
    constructor
    · rintro ⟨a, b⟩
      constructor <;> nlinarith
    · rintro ⟨a, b⟩
      constructor
      · by_contra hc
        nlinarith
      · by_contra hc
        nlinarith
  · obtain ⟨h1, h2⟩ := key _ _ _ _ hz
    obtain ⟨h1', h2'⟩ := key _ _ _ _ hz'
    generalize -V3.dot c.w (p - c.position) = s at *
    generalize -V3.dot c.w (p' - c.position) = s' at *
    have e : (z' - z) * (s * s') * 999999 = 20000 * (s' - s) := by linear_combination s * h2' - s' * h2
    have hss : 0 < s * s' := mul_pos h1 h1'
    constructor
    · intro hlt
      have : 0 < (z' - z) * (s * s') := mul_pos (by linarith) hss
      linarith
    · intro hlt
      by_contra hc
      have : (z' - z) * (s * s') ≤ 0 := mul_nonpos_of_nonpos_of_nonneg (by linarith) hss.le
      linarith

/-- C95. Neighbouring pixel centres of a w × h film are equally far apart horizontally and vertically, so that the image is not skewed, exactly if the aspect ratio of the camera is width / height. -/
theorem C95_square_pixels (c : Camera) (hc : c.Proper) (w h : ℕ) (hw : 0 < w) (hh : 0 < h) (x y : ℝ) :
    (let dx := c.screen ((x + 1) / w) (y / h) - c.screen (x / w) (y / h)
     let dy := c.screen (x / w) ((y + 1) / h) - c.screen (x / w) (y / h)
     V3.dot dx dx = V3.dot dy dy) ↔ c.aspect = w / h := by
  obtain ⟨⟨u1, v1, w1, huv, huw, hvw, hcr⟩, htf, ha⟩ := hc
  have hw' : (0 : ℝ) < w := Nat.cast_pos.mpr hw
  have hh' : (0 : ℝ) < h := Nat.cast_pos.mpr hh
  have ex : c.screen ((x + 1) / w) (y / h) - c.screen (x / w) (y / h) = (2 * (c.aspect * c.tf) / w) • c.u := by
    ext <;> simp [Camera.screen] <;> ring
  have ey : c.screen (x / w) ((y + 1) / h) - c.screen (x / w) (y / h) = (2 * c.tf / h) • c.v := by
    ext <;> simp [Camera.screen] <;> ring
  dsimp only
  rw [ex, ey, V3.dot_smul_left, V3.dot_smul_right, V3.dot_smul_left, V3.dot_smul_right, u1, v1, mul_one, mul_one, ← sq, ← sq, sq_eq_sq₀ (by positivity) (by positivity)]
  constructor
  · intro e
    field_simp at e ⊢
    linarith
  · intro e
    rw [e]
    field_simp

/-- C95. The documentation and the comments of the camera give the aspect ratio as height / width: a camera configured like that skews the image on every film that is not square. -/
theorem C95_negation_documented (c : Camera) (hc : c.Proper) (w h : ℕ) (hw : 0 < w) (hh : 0 < h) (hne : w ≠ h) (ha : c.aspect = h / w) (x y : ℝ) :
    (let dx := c.screen ((x + 1) / w) (y / h) - c.screen (x / w) (y / h)
     let dy := c.screen (x / w) ((y + 1) / h) - c.screen (x / w) (y / h)
     V3.dot dx dx ≠ V3.dot dy dy) := by
  intro dx dy e
  have := (C95_square_pixels c hc w h hw hh x y).mp e
  rw [ha] at this
  have hw' : (0 : ℝ) < w := Nat.cast_pos.mpr hw
  have hh' : (0 : ℝ) < h := Nat.cast_pos.mpr hh
  rw [div_eq_div_iff hw'.ne' hh'.ne'] at this
  have hcast : (h : ℝ) = w := by nlinarith
  exact hne (Nat.cast_injective hcast).symm

/-- The columns of the matrix are the axes of a right-handed orthonormal frame. -/
def Rigid (m : M4) : Prop := Orthonormal m.c0.xyz m.c1.xyz m.c2.xyz

/-- C95. A camera constructed from a rigid matrix is proper: it sits at the translation, looks along the third column, the second column points up and the first one to the left. -/
theorem C95_matrix (jc ju : V3 ℝ) (p : Props) (m : M4) (hm : p.matrix = some m) (hr : Rigid m) (vfov aspect : ℝ) (hv : p.vfov = some vfov) (ha : p.aspect = some aspect) (h0 : 0 < vfov) (h1 : vfov < 180) (ha0 : 0 < aspect) :
    ∃ c, construct jc ju p = .ret c ∧ c.Proper ∧ c.position = m.c3.xyz ∧ -c.w = m.c2.xyz ∧ c.v = m.c1.xyz ∧ -c.u = m.c0.xyz ∧ c.tf = tfOf vfov ∧ c.aspect = aspect := by
  obtain ⟨u1, v1, w1, huv, huw, hvw, hcr⟩ := hr
  refine ⟨_, by simp only [construct, frame, hm, hv, ha]; rfl, ⟨⟨?_, v1, ?_, ?_, ?_, ?_, ?_⟩, C47_fov vfov h0 h1, ha0⟩, rfl, neg_neg _, rfl, neg_neg _, rfl, rfl⟩
  · simp only [V3.dot, V3.neg_x, V3.neg_y, V3.neg_z] at *; linarith
  · simp only [V3.dot, V3.neg_x, V3.neg_y, V3.neg_z] at *; linarith
  · simp only [V3.dot, V3.neg_x, V3.neg_y, V3.neg_z] at *; linarith
  · simp only [V3.dot, V3.neg_x, V3.neg_y, V3.neg_z] at *; linarith
  · simp only [V3.dot, V3.neg_x, V3.neg_y, V3.neg_z] at *; linarith
  · rw [← hcr]; ext <;> simp [V3.cross] <;> ring

/-- The identity matrix. -/
def ident : M4 := ⟨⟨1, 0, 0, 0⟩, ⟨0, 1, 0, 0⟩, ⟨0, 0, 1, 0⟩, ⟨0, 0, 0, 1⟩⟩

theorem ident_rigid : Rigid ident := by
  refine ⟨?_, ?_, ?_, ?_, ?_, ?_, ?_⟩ <;> simp [ident, V4.xyz, V3.dot, V3.cross]

/-- C95. The view matrix of a camera constructed from a matrix depends on uninitialised memory: with the same properties it is a matrix for some content and another one for another content. -/
theorem C95_negation_matrix_view : ∃ (p : Props) (m : M4), p.matrix = some m ∧ Rigid m ∧ ∃ j j' c c' view view', construct 0 j p = .ret c ∧ construct 0 j' p = .ret c' ∧
    viewMatrix c = some view ∧ viewMatrix c' = some view' ∧ view ≠ view' := by
  have n1 : normalize (⟨0, 0, 1⟩ : V3 ℝ) = some ⟨0, 0, 1⟩ := normalize_unique (k := 1) one_pos (by simp [V3.dot]) (by ext <;> simp)
  have n2 : normalize (⟨-1, 0, 0⟩ : V3 ℝ) = some ⟨-1, 0, 0⟩ := normalize_unique (k := 1) one_pos (by simp [V3.dot]) (by ext <;> simp)
  have n3 : normalize (⟨0, 1, 0⟩ : V3 ℝ) = some ⟨0, 1, 0⟩ := normalize_unique (k := 1) one_pos (by simp [V3.dot]) (by ext <;> simp)
  have e0 : ident.c3.xyz - -ident.c2.xyz - ident.c3.xyz = ⟨0, 0, 1⟩ := by ext <;> simp [ident, V4.xyz]
  refine ⟨⟨some ident, none, none, none, some 90, some 1⟩, ident, rfl, ident_rigid, ⟨0, 1, 0⟩, ⟨1, 0, 0⟩, _, _, ⟨⟨-1, 0, 0, 0⟩, ⟨0, 1, 0, 0⟩, ⟨0, 0, -1, 0⟩, ⟨0, 0, 0, 1⟩⟩, ⟨⟨0, 1, 0, 0⟩, ⟨1, 0, 0, 0⟩, ⟨0, 0, -1, 0⟩, ⟨0, 0, 0, 1⟩⟩, rfl, rfl, ?_, ?_, ?_⟩
  · simp only [viewMatrix, glmLookAt]
    rw [e0, n1]
    dsimp only
    rw [show V3.cross (⟨0, 0, 1⟩ : V3 ℝ) ⟨0, 1, 0⟩ = ⟨-1, 0, 0⟩ by ext <;> simp [V3.cross], n2]
    simp [V3.cross, V3.dot, ident, V4.xyz]
  · simp only [viewMatrix, glmLookAt]
    rw [e0, n1]
    dsimp only
    rw [show V3.cross (⟨0, 0, 1⟩ : V3 ℝ) ⟨1, 0, 0⟩ = ⟨0, 1, 0⟩ by ext <;> simp [V3.cross], n3]
    simp [V3.cross, V3.dot, ident, V4.xyz]
  · intro e
    have := congrArg (fun m : M4 => m.c0.x) e
    norm_num at this

/-- C95. A matrix with a scale is accepted, but the primary rays of the camera are then not unit vectors, as the rest of the library requires. -/
theorem C95_negation_scaled : ∃ (p : Props) (c : Pinhole) (d : V3 ℝ), construct 0 0 p = .ret c ∧ primaryRay c.toCamera (1 / 2) (1 / 2) = some d ∧ V3.dot d d = 4 := by
  have n1 : ∀ t : ℝ, normalize (⟨1 * t * (2 * (1 / 2) - 1), t * (2 * (1 / 2) - 1), -1⟩ : V3 ℝ) = some ⟨0, 0, -1⟩ := fun t => normalize_unique (k := 1) one_pos (by simp [V3.dot]) (by ext <;> simp)
  refine ⟨⟨some ⟨⟨2, 0, 0, 0⟩, ⟨0, 2, 0, 0⟩, ⟨0, 0, 2, 0⟩, ⟨0, 0, 0, 1⟩⟩, none, none, none, some 90, some 1⟩, _, ⟨0, 0, 2⟩, rfl, ?_, ?_⟩
  · simp only [primaryRay]
    rw [n1]
    simp only [Option.map_some, Option.some.injEq]
    ext <;> simp [V4.xyz]
  · norm_num [V3.dot]

/-- The properties that construct would read from a JSON object. -/
def ofObject (o : List (String × (V3 ℝ ⊕ ℝ))) : Props :=
  let vec k := (o.lookup k).bind Sum.getLeft?
  let num k := (o.lookup k).bind Sum.getRight?
  ⟨none, vec "position", vec "center", vec "up", num "vfov", num "aspect"⟩

/-- C95. The parameters that a camera reports cannot be used to construct a camera again: the position is reported under another name than the one construct asks for, and it throws. -/
theorem C95_negation_reported (jc ju : V3 ℝ) (c : Pinhole) : construct jc ju (ofObject (underlyingValue c)) = .throw := rfl

/-- The hypotheses are met: a camera at (0, 0, 5) looking at the origin draws the origin at the centre of the screen. -/
example : ∃ c view proj z, construct 0 0 ⟨none, some ⟨0, 0, 5⟩, some 0, some ⟨0, 1, 0⟩, some 90, some 2⟩ = .ret c ∧ viewMatrix c = some view ∧ projectionMatrix c = some proj ∧ Drawn view proj 0 0 0 z ∧ -1 ≤ z ∧ z ≤ 1 := by
  obtain ⟨c, hc, hu, hp, k, hk, hw⟩ := C95_constructed 0 0 ⟨0, 0, 5⟩ 0 ⟨0, 1, 0⟩ 90 2 (by intro e; have := congrArg V3.x e; simp [V3.cross] at this) (by norm_num) (by norm_num) (by norm_num)
  obtain ⟨view, proj, hv, hpj, hd⟩ := C95_drawn c hu
  obtain ⟨view', proj', hv', hpj', hdep, _⟩ := C95_depth c hu
  obtain rfl : view = view' := Option.some.inj (hv.symm.trans hv')
  obtain rfl : proj = proj' := Option.some.inj (hpj.symm.trans hpj')
  have hw' : (0 : V3 ℝ) - c.position = k • (-c.w) := by rw [hp]; exact hw
  obtain ⟨z, hz⟩ := (hd 0 (1 / 2) (1 / 2)).mpr ⟨1 / k, by positivity, by rw [hw', smul_smul, one_div_mul_cancel hk.ne', one_smul]; ext <;> simp [Camera.screen]⟩
  rw [show (2 : ℝ) * (1 / 2) - 1 = 0 by norm_num] at hz
  obtain ⟨_, _, hw1, _⟩ := hu.facts.1.1
  have hk5 : k = 5 := by
    have h1 : V3.dot ((0 : V3 ℝ) - c.position) ((0 : V3 ℝ) - c.position) = k * k := by
      rw [hw', V3.dot_smul_left, V3.dot_smul_right]
      simp only [V3.dot, V3.neg_x, V3.neg_y, V3.neg_z] at *
      linear_combination (k * k) * hw1
    rw [hp] at h1
    simp [V3.dot] at h1
    nlinarith
  have hdot : -V3.dot c.w (0 - c.position) = k := by
    rw [hw', V3.dot_smul_right]
    simp only [V3.dot, V3.neg_x, V3.neg_y, V3.neg_z] at *
    linear_combination k * hw1
  refine ⟨c, view, proj, z, hc, hv, hpj, hz, ?_⟩
  rw [hdep _ _ _ _ hz, hdot, hk5]
  norm_num

end LM.CameraView
