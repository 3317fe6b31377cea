import Verif.Props.C86_Lit
/-
  C86: directional lights. Their rays start on a disk perpendicular to the direction of the light; the points of a triangle, projected onto the disk.
-/
namespace LM.Transport
open MeasureTheory LM LM.Surface LM.Material LM.Light LM.MathF LM.Path LM.Render LM.Solid Set
open scoped ENNReal

/-! ### Affine maps of the plane -/

/-- An affine map of the plane. -/
def affine2 (a b c : ℝ × ℝ) (s : ℝ × ℝ) : ℝ × ℝ := (a.1 + s.1 * b.1 + s.2 * c.1, a.2 + s.1 * b.2 + s.2 * c.2)

theorem affine2_deriv (a b c : ℝ × ℝ) (s : ℝ × ℝ) : HasFDerivAt (affine2 a b c) (Matrix.toLin (.finTwoProd ℝ) (.finTwoProd ℝ) !![b.1, c.1; b.2, c.2]).toContinuousLinearMap s := by
  rw [Matrix.toLin_finTwoProd_toContinuousLinearMap]
  have h := HasFDerivAt.prodMk (𝕜 := ℝ) ((((hasFDerivAt_fst (p := s)).mul_const b.1).const_add a.1).add ((hasFDerivAt_snd (p := s)).mul_const c.1))
    ((((hasFDerivAt_fst (p := s)).mul_const b.2).const_add a.2).add ((hasFDerivAt_snd (p := s)).mul_const c.2))
  exact h

theorem affine2_inj {a b c : ℝ × ℝ} (h : b.1 * c.2 - c.1 * b.2 ≠ 0) : Function.Injective (affine2 a b c) := by
  intro s t e
  have e1 : (s.1 - t.1) * b.1 + (s.2 - t.2) * c.1 = 0 := by have := congrArg Prod.fst e; simp only [affine2] at this; linarith
  have e2 : (s.1 - t.1) * b.2 + (s.2 - t.2) * c.2 = 0 := by have := congrArg Prod.snd e; simp only [affine2] at this; linarith
  have h1 : (s.1 - t.1) * (b.1 * c.2 - c.1 * b.2) = 0 := by linear_combination c.2 * e1 - c.1 * e2
  have h2 : (s.2 - t.2) * (b.1 * c.2 - c.1 * b.2) = 0 := by linear_combination b.1 * e2 - b.2 * e1
  exact Prod.ext (sub_eq_zero.mp ((mul_eq_zero.mp h1).resolve_right h)) (sub_eq_zero.mp ((mul_eq_zero.mp h2).resolve_right h))

theorem affine2_image {a b c : ℝ × ℝ} (h : b.1 * c.2 - c.1 * b.2 ≠ 0) {s : Set (ℝ × ℝ)} (hs : MeasurableSet s) : MeasurableSet (affine2 a b c '' s) :=
  measurable_image_of_fderivWithin hs (fun x _ => (affine2_deriv a b c x).hasFDerivWithinAt) (affine2_inj h).injOn

theorem affine2_lintegral {a b c : ℝ × ℝ} (h : b.1 * c.2 - c.1 * b.2 ≠ 0) {s : Set (ℝ × ℝ)} (hs : MeasurableSet s) (G : ℝ × ℝ → ℝ≥0∞) :
    ∫⁻ q in affine2 a b c '' s, G q = ∫⁻ x in s, ENNReal.ofReal |b.1 * c.2 - c.1 * b.2| * G (affine2 a b c x) := by
  rw [lintegral_image_eq_lintegral_abs_det_fderiv_mul volume hs (fun x _ => (affine2_deriv a b c x).hasFDerivWithinAt) (affine2_inj h).injOn]
  simp only [LinearMap.det_toContinuousLinearMap, LinearMap.det_toLin, Matrix.det_fin_two_of]

/-! ### The disk -/

/-- The point of the disk from which a directional light sends a ray, by its coordinates. -/
noncomputable def discAt (u v c : V3 ℝ) (r : ℝ) (d : V3 ℝ) (q : ℝ × ℝ) : V3 ℝ := c + r • (-d) + ((q.1 * r) • u + (q.2 * r) • v)

/-- The coordinates of the projection of a point to the disk. -/
noncomputable def flatten (u v c : V3 ℝ) (r : ℝ) (p : V3 ℝ) : ℝ × ℝ := (V3.dot (p - c) u / r, V3.dot (p - c) v / r)

theorem frame_expand {u v d : V3 ℝ} (h : MathF.Orthonormal u v d) (p : V3 ℝ) : p = V3.dot p u • u + V3.dot p v • v + V3.dot p d • d := by
  obtain ⟨uu, vv, dd, uv, ud, vd, hx⟩ := h
  have h1 : V3.cross v d = u := by
    rw [← hx]
    ext
    all_goals simp only [V3.cross, V3.dot] at *
    · linear_combination u.x * vv - v.x * uv
    · linear_combination u.y * vv - v.y * uv
    · linear_combination u.z * vv - v.z * uv
  have h2 : V3.cross d u = v := by
    rw [← hx]
    ext
    all_goals simp only [V3.cross, V3.dot] at *
    · linear_combination v.x * uu - u.x * uv
    · linear_combination v.y * uu - u.y * uv
    · linear_combination v.z * uu - u.z * uv
  set w := p - (V3.dot p u • u + V3.dot p v • v + V3.dot p d • d) with hw
  have wu : V3.dot w u = 0 := by
    have e : V3.dot w u = V3.dot p u - (V3.dot p u * V3.dot u u + V3.dot p v * V3.dot u v + V3.dot p d * V3.dot u d) := by
      rw [hw]; simp only [V3.dot, V3.sub_x, V3.sub_y, V3.sub_z, V3.add_x, V3.add_y, V3.add_z, V3.smul_x, V3.smul_y, V3.smul_z]; ring
    rw [e, uu, uv, ud]; ring
  have wv : V3.dot w v = 0 := by
    have e : V3.dot w v = V3.dot p v - (V3.dot p u * V3.dot u v + V3.dot p v * V3.dot v v + V3.dot p d * V3.dot v d) := by
      rw [hw]; simp only [V3.dot, V3.sub_x, V3.sub_y, V3.sub_z, V3.add_x, V3.add_y, V3.add_z, V3.smul_x, V3.smul_y, V3.smul_z]; ring
    rw [e, vv, uv, vd]; ring
  have wd : V3.dot w d = 0 := by
    have e : V3.dot w d = V3.dot p d - (V3.dot p u * V3.dot u d + V3.dot p v * V3.dot v d + V3.dot p d * V3.dot d d) := by
      rw [hw]; simp only [V3.dot, V3.sub_x, V3.sub_y, V3.sub_z, V3.add_x, V3.add_y, V3.add_z, V3.smul_x, V3.smul_y, V3.smul_z]; ring
    rw [e, dd, ud, vd]; ring
  have hww : V3.dot w w = 0 := by
    have e : V3.dot w w * (det3 u v d) ^ 2 = 0 := by
      have k : det3 u v d • w = V3.dot w u • V3.cross v d + V3.dot w v • V3.cross d u + V3.dot w d • V3.cross u v := by
        ext <;> simp only [det3, V3.dot, V3.cross, V3.add_x, V3.add_y, V3.add_z, V3.smul_x, V3.smul_y, V3.smul_z] <;> ring
      rw [wu, wv, wd] at k
      have : V3.dot (det3 u v d • w) (det3 u v d • w) = 0 := by rw [k]; simp [V3.dot]
      rw [← this]
      simp only [V3.dot, V3.smul_x, V3.smul_y, V3.smul_z]; ring
    have hd := det_frame (frame_of ⟨uu, vv, dd, uv, ud, vd, hx⟩)
    have : det3 u v d ^ 2 = 1 := by rw [← sq_abs, hd, one_pow]
    rwa [this, mul_one] at e
  exact sub_eq_zero.mp (dot_self_zero hww)

theorem disc_flatten {u v d : V3 ℝ} (h : MathF.Orthonormal u v d) (c : V3 ℝ) {r : ℝ} (hr : 0 < r) (p : V3 ℝ) : discAt u v c r d (flatten u v c r p) = p - (V3.dot (p - c) d + r) • d := by
  have e := frame_expand h (p - c)
  unfold discAt flatten
  dsimp only
  rw [div_mul_cancel₀ _ hr.ne', div_mul_cancel₀ _ hr.ne']
  have e2 : p = c + (V3.dot (p - c) u • u + V3.dot (p - c) v • v + V3.dot (p - c) d • d) := by rw [← e]; abel
  conv_rhs => rw [e2]
  have e3 : c + (V3.dot (p - c) u • u + V3.dot (p - c) v • v + V3.dot (p - c) d • d) - c = p - c := by rw [← e]; abel
  rw [e3]
  ext <;> simp <;> ring

theorem flatten_disc {u v d : V3 ℝ} (h : MathF.Orthonormal u v d) (c : V3 ℝ) {r : ℝ} (hr : 0 < r) (q : ℝ × ℝ) (s : ℝ) : flatten u v c r (discAt u v c r d q + s • d) = q := by
  obtain ⟨uu, vv, dd, uv, ud, vd, _⟩ := h
  unfold discAt flatten
  refine Prod.ext ?_ ?_
  · have e : V3.dot (c + r • (-d) + ((q.1 * r) • u + (q.2 * r) • v) + s • d - c) u = (s - r) * V3.dot u d + (q.1 * r) * V3.dot u u + (q.2 * r) * V3.dot u v := by
      simp only [V3.dot, V3.sub_x, V3.sub_y, V3.sub_z, V3.add_x, V3.add_y, V3.add_z, V3.smul_x, V3.smul_y, V3.smul_z, V3.neg_x, V3.neg_y, V3.neg_z]; ring
    dsimp only
    rw [e, uu, uv, ud, div_eq_iff hr.ne']; ring
  · have e : V3.dot (c + r • (-d) + ((q.1 * r) • u + (q.2 * r) • v) + s • d - c) v = (s - r) * V3.dot v d + (q.1 * r) * V3.dot u v + (q.2 * r) * V3.dot v v := by
      simp only [V3.dot, V3.sub_x, V3.sub_y, V3.sub_z, V3.add_x, V3.add_y, V3.add_z, V3.smul_x, V3.smul_y, V3.smul_z, V3.neg_x, V3.neg_y, V3.neg_z]; ring
    dsimp only
    rw [e, vv, uv, vd, div_eq_iff hr.ne']; ring

/-- The projection of a triangle is an affine map. -/
theorem flatten_tri (u v c : V3 ℝ) (r : ℝ) (t : Tri) (s : ℝ × ℝ) : flatten u v c r (triAt t s) =
    affine2 (flatten u v c r t.a) (V3.dot (t.b - t.a) u / r, V3.dot (t.b - t.a) v / r) (V3.dot (t.c - t.a) u / r, V3.dot (t.c - t.a) v / r) s := by
  unfold flatten affine2 triAt
  refine Prod.ext ?_ ?_ <;> simp only [V3.dot, V3.sub_x, V3.sub_y, V3.sub_z, V3.add_x, V3.add_y, V3.add_z, V3.smul_x, V3.smul_y, V3.smul_z] <;> ring

/-- Its determinant. -/
theorem flatten_det {u v d : V3 ℝ} (h : MathF.Orthonormal u v d) (r : ℝ) (t : Tri) :
    V3.dot (t.b - t.a) u / r * (V3.dot (t.c - t.a) v / r) - V3.dot (t.c - t.a) u / r * (V3.dot (t.b - t.a) v / r) = V3.dot (triCross t) d / (r * r) := by
  rw [← h.2.2.2.2.2.2]
  unfold triCross
  simp only [V3.dot, V3.cross, V3.sub_x, V3.sub_y, V3.sub_z]
  ring

/-- The projection of the triangle. -/
def shadow (u v c : V3 ℝ) (r : ℝ) (t : Tri) : Set (ℝ × ℝ) := (fun s => flatten u v c r (triAt t s)) '' simplex

theorem shadow_eq (u v c : V3 ℝ) (r : ℝ) (t : Tri) : shadow u v c r t =
    affine2 (flatten u v c r t.a) (V3.dot (t.b - t.a) u / r, V3.dot (t.b - t.a) v / r) (V3.dot (t.c - t.a) u / r, V3.dot (t.c - t.a) v / r) '' simplex := by
  unfold shadow
  simp_rw [flatten_tri]

/-- Integrals over a triangle seen from a direction, and over its projection. -/
theorem tri_parallel {u v d : V3 ℝ} (h : MathF.Orthonormal u v d) (c : V3 ℝ) {r : ℝ} (hr : 0 < r) {t : Tri} (ht : V3.dot (triCross t) d ≠ 0) {K : V3 ℝ → ℝ≥0∞} (hK : Measurable K) {G : ℝ × ℝ → ℝ≥0∞}
    (hG : ∀ s ∈ simplex, G (flatten u v c r (triAt t s)) = K (triAt t s)) :
    ∫⁻ q in shadow u v c r t, G q = ENNReal.ofReal (1 / (r * r)) * ∫⁻ p, ENNReal.ofReal |V3.dot (dirOf (triCross t)) d| * K p ∂triMeasure t := by
  have hrr : 0 < r * r := mul_pos hr hr
  have hdet := flatten_det h r t
  have hne : V3.dot (t.b - t.a) u / r * (V3.dot (t.c - t.a) v / r) - V3.dot (t.c - t.a) u / r * (V3.dot (t.b - t.a) v / r) ≠ 0 := by
    rw [hdet]; exact div_ne_zero ht hrr.ne'
  have hKt : Measurable fun s => K (triAt t s) := hK.comp (measurable_triAt t)
  have harea : 0 < V3.dot (triCross t) (triCross t) := by
    rcases (dot_self_nonneg (triCross t)).eq_or_lt with e | e
    · exact absurd (by rw [dot_self_zero e.symm]; simp [V3.dot]) ht
    · exact e
  have hsq := Real.sqrt_pos.mpr harea
  have hcos : twiceArea t * |V3.dot (dirOf (triCross t)) d| = |V3.dot (triCross t) d| := by
    obtain ⟨_, e⟩ := dirOf_spec harea
    conv_rhs => rw [e]
    rw [V3.dot_comm (_ • _) d, V3.dot_smul_right, abs_mul, abs_of_pos hsq, V3.dot_comm d]
    rfl
  rw [shadow_eq, affine2_lintegral hne measurableSet_simplex]
  unfold triMeasure
  rw [lintegral_smul_measure, lintegral_map (hK.const_mul _) (measurable_triAt t), smul_eq_mul, lintegral_const_mul _ hKt, ← mul_assoc (ENNReal.ofReal (twiceArea t)), ← ENNReal.ofReal_mul (show 0 ≤ twiceArea t from Real.sqrt_nonneg _), hcos, ← mul_assoc,
    ← ENNReal.ofReal_mul (by positivity), ← lintegral_const_mul _ hKt]
  refine setLIntegral_congr_fun measurableSet_simplex fun s hs => ?_
  beta_reduce
  rw [← flatten_tri, hG s hs]
  dsimp only
  rw [hdet, abs_div, abs_of_pos hrr, div_eq_mul_one_div, mul_comm |_|]

/-! ### The rays of a directional light -/

variable {Q : Query} {Fs : List (Int × Tri)} {vertex : Int → V3 ℝ → SI}

/-- The rays of direction d from the disk of radius r around c sweep the surfaces, which are in the sphere around c. -/
structure Swept (Q : Query) (Fs : List (Int × Tri)) (d c : V3 ℝ) (r : ℝ) : Prop where
  unit : V3.dot d d = 1
  pos : 0 < r
  within : ∀ g ∈ Fs, ∀ p, Inside g.2 p → V3.dot (p - c) (p - c) ≤ r * r
  once : ∀ u v, MathF.Orthonormal u v d → ∀ᵐ q : ℝ × ℝ, ∀ h, Q.isect (discAt u v c r d q) d = some h → ∃ (k : ℕ) (t : Tri), Fs[k]? = some (h.primitive, t) ∧ Inside t h.geom.p ∧ V3.dot (triCross t) d ≠ 0 ∧
    ∀ (k' : ℕ) (t' : Tri), Fs[k']? = some (h.primitive, t') → Inside t' h.geom.p → k' = k

/-- A directional light in a scene of triangles, with rays from the disk of radius r around c: the surfaces are in the sphere around c, and the light is visible from the points that its rays meet. -/
structure BeamLamp (Q : Query) (Fs : List (Int × Tri)) (vertex : Int → V3 ℝ → SI) (node : Int) (E d junk c : V3 ℝ) (r : ℝ) : Prop where
  nonneg : NonNeg E
  unit : V3.dot d d = 1
  pos : 0 < r
  within : ∀ g ∈ Fs, ∀ p, Inside g.2 p → V3.dot (p - c) (p - c) ≤ r * r
  /-- except for rays of measure zero (those that meet edges), what a ray of the light meets is in one triangle, which is not edge-on -/
  once : ∀ u v, MathF.Orthonormal u v d → ∀ᵐ q : ℝ × ℝ, ∀ h, Q.isect (discAt u v c r d q) d = some h → ∃ (k : ℕ) (t : Tri), Fs[k]? = some (h.primitive, t) ∧ Inside t h.geom.p ∧ V3.dot (triCross t) d ≠ 0 ∧
    ∀ (k' : ℕ) (t' : Tri), Fs[k']? = some (h.primitive, t') → Inside t' h.geom.p → k' = k
  seen : ∀ g ∈ Fs, ∀ᵐ p ∂triMeasure g.2, Q.visible (vertex g.1 p) ⟨.light, node, makeInfinite d junk junk⟩ = true ↔ hitOf Q (p - (V3.dot (p - c) d + r) • d) d = some (g.1, p)
  measurable : ∀ j, MeasurableSet {x | Q.visible (vertex j x) ⟨.light, node, makeInfinite d junk junk⟩ = true}

theorem BeamLamp.swept {node : Int} {E d junk c : V3 ℝ} {r : ℝ} (h : BeamLamp Q Fs vertex node E d junk c r) : Swept Q Fs d c r := ⟨h.unit, h.pos, h.within, h.once⟩

theorem measurable_discAt (u v c : V3 ℝ) (r : ℝ) (d : V3 ℝ) : Measurable (discAt u v c r d) := by
  unfold discAt
  exact measurable_add3 measurable_const (measurable_add3 (measurable_smul3 (measurable_fst.mul_const r) measurable_const) (measurable_smul3 (measurable_snd.mul_const r) measurable_const))

theorem hitPoint_back {t : Tri} {d : V3 ℝ} (h : V3.dot (triCross t) d ≠ 0) {s : ℝ × ℝ} (k : ℝ) : hitPoint t (triAt t s - k • d) d = triAt t s := by
  have e0 : V3.dot (triCross t) (triAt t s - t.a) = 0 := by
    simp only [triCross, triAt, V3.dot, V3.cross, V3.sub_x, V3.sub_y, V3.sub_z, V3.add_x, V3.add_y, V3.add_z, V3.smul_x, V3.smul_y, V3.smul_z]; ring
  have e1 : V3.dot (triCross t) (t.a - (triAt t s - k • d)) = k * V3.dot (triCross t) d - V3.dot (triCross t) (triAt t s - t.a) := by
    simp only [V3.dot, V3.sub_x, V3.sub_y, V3.sub_z, V3.smul_x, V3.smul_y, V3.smul_z]; ring
  unfold hitPoint
  rw [e1, e0, sub_zero, mul_div_cancel_right₀ _ h, sub_add_cancel]

theorem shadow_disk {u v d : V3 ℝ} (h : MathF.Orthonormal u v d) {c : V3 ℝ} {r : ℝ} (hr : 0 < r) {t : Tri} (hw : ∀ p, Inside t p → V3.dot (p - c) (p - c) ≤ r * r) : shadow u v c r t ⊆ {q | q.1 ^ 2 + q.2 ^ 2 ≤ 1} := by
  rintro q ⟨s, hs, rfl⟩
  have hp := hw _ ⟨s, hs, rfl⟩
  set w := triAt t s - c with hw
  have e : V3.dot w w = V3.dot w u ^ 2 + V3.dot w v ^ 2 + V3.dot w d ^ 2 := by
    have := congrArg (V3.dot w) (frame_expand h w)
    rw [this, V3.dot_add_right, V3.dot_add_right, V3.dot_smul_right, V3.dot_smul_right, V3.dot_smul_right]; ring
  have hrr : 0 < r * r := mul_pos hr hr
  show (V3.dot w u / r) ^ 2 + (V3.dot w v / r) ^ 2 ≤ 1
  rw [div_pow, div_pow, ← add_div, div_le_one (by positivity)]
  nlinarith [sq_nonneg (V3.dot w d)]

theorem measurableSet_shadow {u v d : V3 ℝ} (h : MathF.Orthonormal u v d) (c : V3 ℝ) {r : ℝ} (hr : 0 < r) {t : Tri} (ht : V3.dot (triCross t) d ≠ 0) : MeasurableSet (shadow u v c r t) := by
  rw [shadow_eq]
  exact affine2_image (by rw [flatten_det h r t]; exact div_ne_zero ht (mul_pos hr hr).ne') measurableSet_simplex

variable {node : Int} {E d junk c : V3 ℝ} {r : ℝ}

open Classical in
/-- Integrals over the disk, of functions of what the rays meet, are sums over the triangles of integrals over their points. -/
theorem Swept.over (hF : Faceted Q Fs vertex) (h : Swept Q Fs d c r) {u v : V3 ℝ} (ho : MathF.Orthonormal u v d) {F : Spot → ℝ≥0∞} (hFm : ∀ j, Measurable fun p : V3 ℝ => F (j, p)) :
    ∫⁻ q in {q : ℝ × ℝ | q.1 ^ 2 + q.2 ^ 2 ≤ 1}, (match hitOf Q (discAt u v c r d q) d with | none => 0 | some x => F x) =
      (Fs.map fun g => ENNReal.ofReal (1 / (r * r)) * ∫⁻ p, ENNReal.ofReal |V3.dot (dirOf (triCross g.2)) d| * (if hitOf Q (p - (V3.dot (p - c) d + r) • d) d = some (g.1, p) then F (g.1, p) else 0) ∂triMeasure g.2).sum := by
  have hr := h.pos
  have hD := measurable_discAt u v c r d
  have hpt : ∀ t : Tri, Measurable fun q => hitPoint t (discAt u v c r d q) d := fun t => by
    unfold hitPoint
    exact measurable_add3 hD (measurable_smul3 ((measurable_dot3 measurable_const (measurable_sub3' measurable_const hD)).div_const _) measurable_const)
  have hm : ∀ g : Int × Tri, Measurable fun q => if hitOf Q (discAt u v c r d q) d = some (g.1, hitPoint g.2 (discAt u v c r d q) d) then F (g.1, hitPoint g.2 (discAt u v c r d q) d) else 0 := fun g =>
    Measurable.ite (hF.measurable_met g.1 hD measurable_const (hpt g.2)) ((hFm g.1).comp (hpt g.2)) measurable_const
  let S : Tri → Set (ℝ × ℝ) := fun t => if V3.dot (triCross t) d = 0 then ∅ else shadow u v c r t
  have hS : ∀ t, MeasurableSet (S t) := fun t => by
    show MeasurableSet (if V3.dot (triCross t) d = 0 then ∅ else shadow u v c r t)
    split
    · exact MeasurableSet.empty
    · exact measurableSet_shadow ho c hr ‹_›
  have hSm : ∀ t q, q ∈ S t → V3.dot (triCross t) d ≠ 0 ∧ ∃ s ∈ simplex, flatten u v c r (triAt t s) = q := fun t q hq => by
    by_cases h0 : V3.dot (triCross t) d = 0
    · simp only [S, if_pos h0] at hq
      exact absurd hq (notMem_empty _)
    · simp only [S, if_neg h0] at hq
      exact ⟨h0, hq⟩
  have hat : ∀ t : Tri, V3.dot (triCross t) d ≠ 0 → ∀ s, hitPoint t (discAt u v c r d (flatten u v c r (triAt t s))) d = triAt t s := fun t ht s => by
    rw [disc_flatten ho c hr, hitPoint_back ht]
  have e1 : ∀ g ∈ Fs, ENNReal.ofReal (1 / (r * r)) * ∫⁻ p, ENNReal.ofReal |V3.dot (dirOf (triCross g.2)) d| * (if hitOf Q (p - (V3.dot (p - c) d + r) • d) d = some (g.1, p) then F (g.1, p) else 0) ∂triMeasure g.2 =
      ∫⁻ q in {q : ℝ × ℝ | q.1 ^ 2 + q.2 ^ 2 ≤ 1}, (S g.2).indicator (fun q => if hitOf Q (discAt u v c r d q) d = some (g.1, hitPoint g.2 (discAt u v c r d q) d) then F (g.1, hitPoint g.2 (discAt u v c r d q) d) else 0) q := by
    intro g hg
    rw [lintegral_indicator (hS g.2), Measure.restrict_restrict (hS g.2)]
    by_cases h0 : V3.dot (triCross g.2) d = 0
    · have hz : V3.dot (dirOf (triCross g.2)) d = 0 := by
        unfold dirOf
        rw [V3.dot_smul_left, h0, mul_zero]
      simp [S, h0, hz]
    · have hsub : S g.2 ∩ {q | q.1 ^ 2 + q.2 ^ 2 ≤ 1} = shadow u v c r g.2 := by
        simp only [S, if_neg h0]
        exact inter_eq_left.mpr (shadow_disk ho hr (h.within g hg))
      have hK : Measurable fun p => if hitOf Q (p - (V3.dot (p - c) d + r) • d) d = some (g.1, p) then F (g.1, p) else 0 := by
        refine Measurable.ite (hF.measurable_met g.1 (measurable_sub3' measurable_id' (measurable_smul3 ((measurable_dot3 (measurable_sub3' measurable_id' measurable_const) measurable_const).add_const r) measurable_const)) measurable_const measurable_id') (hFm g.1) measurable_const
      rw [hsub, tri_parallel ho c hr h0 hK]
      intro s hs
      rw [hat g.2 h0, disc_flatten ho c hr]
  rw [List.map_congr_left e1, ← lintegral_list_sum _ _ Fs fun g _ => (hm g).indicator (hS g.2)]
  refine lintegral_congr_ae (ae_restrict_of_ae ?_)
  filter_upwards [h.once u v ho] with q hq
  have hzero : ∀ g : Int × Tri, ¬ (q ∈ S g.2 ∧ hitOf Q (discAt u v c r d q) d = some (g.1, hitPoint g.2 (discAt u v c r d q) d)) →
      (S g.2).indicator (fun q => if hitOf Q (discAt u v c r d q) d = some (g.1, hitPoint g.2 (discAt u v c r d q) d) then F (g.1, hitPoint g.2 (discAt u v c r d q) d) else 0) q = 0 := fun g hn => by
    by_cases hs : q ∈ S g.2
    · rw [indicator_of_mem hs, if_neg fun hc => hn ⟨hs, hc⟩]
    · rw [indicator_of_notMem hs]
  cases hi : Q.isect (discAt u v c r d q) d with
  | none =>
    have hn : hitOf Q (discAt u v c r d q) d = none := by unfold hitOf; rw [hi]; rfl
    rw [hn]
    symm
    refine List.sum_eq_zero fun x hx => ?_
    obtain ⟨g, _, rfl⟩ := List.mem_map.mp hx
    exact hzero g fun hc => by rw [hn] at hc; cases hc.2
  | some hit =>
    have hn : hitOf Q (discAt u v c r d q) d = some (hit.primitive, hit.geom.p) := by unfold hitOf; rw [hi]; rfl
    rw [hn]
    dsimp only
    obtain ⟨k, t, hk, hin, hne, hu⟩ := hq hit hi
    obtain ⟨s, hs, es⟩ := hF.ahead _ d hit h.unit hi
    rw [sum_single _ Fs k (hit.primitive, t) hk fun k' t' e hk' => hzero t' fun hc => ?_]
    · obtain ⟨_, hp⟩ := inside_hit hs es hin hne
      have hmem : q ∈ S t := by
        simp only [S, if_neg hne]
        obtain ⟨a, ha, ea⟩ := hin
        refine ⟨a, ha, ?_⟩
        beta_reduce
        rw [← ea, es, flatten_disc ho c hr]
      dsimp only
      rw [indicator_of_mem hmem, hp, if_pos hn]
    · rw [hn] at hc
      obtain ⟨hs', e'⟩ := hc
      injection e' with e'
      injection e' with e1 e2
      refine hk' (hu k' t'.2 (by rw [e, e1]) ?_)
      obtain ⟨h0, a, ha, ea⟩ := hSm _ _ hs'
      rw [e2]
      exact ⟨a, ha, by rw [← ea, hat _ h0]⟩

/-- Almost every ray of the light meets points with a property that almost all points of the surfaces have. -/
theorem Swept.almost (hF : Faceted Q Fs vertex) (h : Swept Q Fs d c r) {u v : V3 ℝ} (ho : MathF.Orthonormal u v d) {R : Spot → Prop} (hR : ∀ g ∈ Fs, ∀ᵐ p ∂triMeasure g.2, R (g.1, p)) :
    ∀ᵐ q ∂(volume : Measure (ℝ × ℝ)).restrict {q : ℝ × ℝ | q.1 ^ 2 + q.2 ^ 2 ≤ 1}, ∀ x, hitOf Q (discAt u v c r d q) d = some x → R x := by
  classical
  let μ : Int → Measure (V3 ℝ) := fun j => ((Fs.filter (·.1 = j)).map fun g => triMeasure g.2).sum
  have hμ : ∀ j, ∀ᵐ p ∂μ j, R (j, p) := fun j => by
    refine ae_map_sum _ (fun g : Int × Tri => triMeasure g.2) _ fun g hg => ?_
    obtain ⟨hg', e⟩ := List.mem_filter.mp hg
    have e : g.1 = j := by simpa using e
    have := hR g hg'
    rw [e] at this
    exact this
  let N : Int → Set (V3 ℝ) := fun j => toMeasurable (μ j) {p | ¬ R (j, p)}
  have hN0 : ∀ j, μ j (N j) = 0 := fun j => by
    show μ j (toMeasurable _ _) = 0
    rw [measure_toMeasurable]; exact ae_iff.mp (hμ j)
  have hNm : ∀ j, MeasurableSet (N j) := fun j => measurableSet_toMeasurable _ _
  have hNt : ∀ g ∈ Fs, triMeasure g.2 (N g.1) = 0 := fun g hg => by
    have h0 := hN0 g.1
    show triMeasure g.2 (N g.1) = 0
    have e : ((Fs.filter (·.1 = g.1)).map fun g' => triMeasure g'.2 (N g.1)).sum = 0 := by rw [← map_sum_apply]; exact h0
    exact List.sum_eq_zero_iff.mp e _ (List.mem_map.mpr ⟨g, List.mem_filter.mpr ⟨hg, by simp⟩, rfl⟩)
  let F : Spot → ℝ≥0∞ := fun x => (N x.1).indicator (fun _ => 1) x.2
  have hFj : ∀ j, Measurable fun p : V3 ℝ => F (j, p) := fun j => measurable_const.indicator (hNm j)
  have hz : ∫⁻ q in {q : ℝ × ℝ | q.1 ^ 2 + q.2 ^ 2 ≤ 1}, (match hitOf Q (discAt u v c r d q) d with | none => 0 | some x => F x) = 0 := by
    refine (h.over hF ho hFj).trans ?_
    refine List.sum_eq_zero fun y hy => ?_
    obtain ⟨g, hg, rfl⟩ := List.mem_map.mp hy
    have hae : ∀ᵐ p ∂triMeasure g.2, p ∉ N g.1 := by rw [ae_iff]; simpa using hNt g hg
    rw [lintegral_congr_ae (hae.mono fun p hp => ?_), lintegral_zero, mul_zero]
    have : F (g.1, p) = 0 := indicator_of_notMem hp _
    rw [this]
    simp
  have hm : Measurable fun q => (match hitOf Q (discAt u v c r d q) d with | none => 0 | some x => F x) := by
    have h0 : Measurable fun q : Spot × V3 ℝ => F q.1 := measurable_spot (F := fun x (_ : V3 ℝ) => F x) fun j => (hFj j).comp measurable_fst
    have h1 : Measurable fun q : (ℝ × ℝ) × Spot => F q.2 := (h0.comp (measurable_id'.prodMk (measurable_const (a := (0 : V3 ℝ))))).comp measurable_snd
    exact hF.measurable_hit (o := fun q : ℝ × ℝ => discAt u v c r d q) (d := fun _ => d) (F := fun _ x => F x) (measurable_discAt u v c r d) measurable_const h1
  rw [lintegral_eq_zero_iff hm] at hz
  refine hz.mono fun d hd x hx => ?_
  simp only [hx, Pi.zero_apply] at hd
  by_contra hc
  have : F x = 1 := indicator_of_mem (show x.2 ∈ N x.1 from subset_toMeasurable _ _ hc) _
  rw [this] at hd
  exact one_ne_zero hd

theorem glare_beam (Q : Query) (vertex : Int → V3 ℝ → SI) (i : Fin 3) (node : Int) (E d junk : V3 ℝ) (x : Spot) : glare Q vertex i node (.beam E d junk) x =
    if Q.visible (vertex x.1 x.2) ⟨.light, node, makeInfinite d junk junk⟩ then ENNReal.ofReal (chan i E) else 0 := rfl

theorem toward_beam (E d junk : V3 ℝ) (x : Spot) : toward (.beam E d junk) x = -d := rfl

theorem disk_average {f : ℝ × ℝ → ℝ≥0∞} (hf : Measurable f) : ∫⁻ p : ℝ × ℝ × ℝ, f (sampleUniformDisk p.1 p.2.1) ∂uniform3 = ENNReal.ofReal (1 / Real.pi) * ∫⁻ q in {q : ℝ × ℝ | q.1 ^ 2 + q.2 ^ 2 ≤ 1}, f q := by
  have h1 : Measurable fun p : ℝ × ℝ => f (sampleUniformDisk p.1 p.2) := hf.comp measurable_disk
  have h2 : Measurable fun p : ℝ × ℝ × ℝ => f (sampleUniformDisk p.1 p.2.1) := h1.comp (measurable_fst.prodMk (measurable_fst.comp measurable_snd))
  rw [lintegral_uniform3 h2]
  simp only [lintegral_const]
  have e := C80_disk
  have : ∫⁻ p : ℝ × ℝ, f (sampleUniformDisk p.1 p.2) ∂uniform2 = ∫⁻ q, f q ∂uniform2.map (fun u => sampleUniformDisk u.1 u.2) := (lintegral_map hf measurable_disk).symm
  rw [this, e, lintegral_smul_measure, smul_eq_mul]
  simp

theorem disk_null {P : ℝ × ℝ → Prop} (hP : ∀ᵐ q ∂(volume : Measure (ℝ × ℝ)).restrict {q : ℝ × ℝ | q.1 ^ 2 + q.2 ^ 2 ≤ 1}, P q) : ∀ᵐ p ∂uniform3, P (sampleUniformDisk p.1 p.2.1) := by
  classical
  let μ := (volume : Measure (ℝ × ℝ)).restrict {q : ℝ × ℝ | q.1 ^ 2 + q.2 ^ 2 ≤ 1}
  let N := toMeasurable μ {q | ¬ P q}
  have hN : MeasurableSet N := measurableSet_toMeasurable _ _
  have h0 : μ N = 0 := by
    show μ (toMeasurable μ _) = 0
    rw [measure_toMeasurable]; exact ae_iff.mp hP
  have hf : Measurable (N.indicator fun _ => (1 : ℝ≥0∞)) := measurable_const.indicator hN
  have hz := disk_average hf
  have hc : Measurable fun p : ℝ × ℝ × ℝ => N.indicator (fun _ => (1 : ℝ≥0∞)) (sampleUniformDisk p.1 p.2.1) := hf.comp (measurable_disk.comp (measurable_fst.prodMk (measurable_fst.comp measurable_snd)))
  rw [lintegral_indicator_const hN, one_mul, show (volume : Measure (ℝ × ℝ)).restrict {q : ℝ × ℝ | q.1 ^ 2 + q.2 ^ 2 ≤ 1} N = 0 from h0, mul_zero,
    lintegral_eq_zero_iff hc] at hz
  refine hz.mono fun p hp => ?_
  by_contra hc
  have : N.indicator (fun _ => (1 : ℝ≥0∞)) (sampleUniformDisk p.1 p.2.1) = 1 := indicator_of_mem (subset_toMeasurable _ _ hc) _
  simp only [this, Pi.zero_apply] at hp
  exact one_ne_zero hp

theorem BeamLamp.thrown (hF : Faceted Q Fs vertex) (i : Fin 3) (sgn : V3 ℝ → Bool) (M : Aff ℝ) (h : BeamLamp Q Fs vertex node E d junk c r) : Thrown Q Fs vertex i node M (directional sgn junk E d c r) (.beam E d junk) := by
  have hr := h.pos
  have hrr : 0 < Real.pi * r * r := mul_pos (mul_pos Real.pi_pos hr) hr
  obtain ⟨u, v, hb⟩ : ∃ u v, orthonormalBasis d (sgn d) = (u, v) := ⟨_, _, rfl⟩
  have ho : MathF.Orthonormal u v d := by
    have := C32_basis d (sgn d) h.unit
    rw [hb] at this
    exact this
  have hone : ∀ (us : RayU), (directional sgn junk E d c r).sampleRay us M = .ok (makeInfinite d (discAt u v c r d (sampleUniformDisk us.up0 us.up1)) junk) d ((1 / (1 / (Real.pi * r * r))) • E) := fun us => by
    simp only [directional, diskPoint, hb, pdfDisk, divF, hrr.ne', if_false, ray, divV, one_div, inv_eq_zero]
    rfl
  have hgm : Measurable (glare Q vertex i node (.beam E d junk)) := by
    have h1 : Measurable fun q : Spot × V3 ℝ => glare Q vertex i node (.beam E d junk) q.1 := by
      refine measurable_spot (F := fun x (_ : V3 ℝ) => glare Q vertex i node (.beam E d junk) x) fun j => ?_
      simp_rw [glare_beam]
      have h2 : Measurable fun x : V3 ℝ => if Q.visible (vertex j x) ⟨.light, node, makeInfinite d junk junk⟩ = true then ENNReal.ofReal (chan i E) else 0 :=
        Measurable.ite (h.measurable j) measurable_const measurable_const
      exact h2.comp measurable_fst
    exact h1.comp (measurable_id'.prodMk (measurable_const (a := (0 : V3 ℝ))))
  have htm : Measurable (toward (.beam E d junk)) := measurable_const
  refine ⟨hgm, htm, fun x _ => ?_, fun F hFm => ?_, fun R hR => ?_⟩
  · rw [toward_beam, V3.dot_neg_right, V3.dot_neg_left, neg_neg]
    exact h.unit
  · simp_rw [hone]
    simp only [worthRay, chan_smul, int2_const]
    have hFj : ∀ j, Measurable fun p : V3 ℝ => F (j, p) (-d) := fun j => hFm.comp ((measurable_const.prodMk measurable_id').prodMk measurable_const)
    have hb' : ∀ q, Adjoint.back (fun x d => hitOf Q x.2 d) F (0, (makeInfinite d (discAt u v c r d q) junk).p) d = match hitOf Q (discAt u v c r d q) d with | none => 0 | some x => F x (-d) := fun q => by
      unfold Adjoint.back
      have e : (makeInfinite d (discAt u v c r d q) junk).p = discAt u v c r d q := rfl
      dsimp only
      rw [e]
      cases hitOf Q (discAt u v c r d q) d <;> rfl
    simp_rw [hb']
    have hbm : Measurable fun q : ℝ × ℝ => (match hitOf Q (discAt u v c r d q) d with | none => 0 | some x => F x (-d)) := by
      have h1 : Measurable fun q : (ℝ × ℝ) × Spot => F q.2 (-d) := hFm.comp (measurable_snd.prodMk measurable_const)
      exact hF.measurable_hit (o := fun q : ℝ × ℝ => discAt u v c r d q) (d := fun _ => d) (F := fun _ x => F x (-d)) (measurable_discAt u v c r d) measurable_const h1
    have e1 := disk_average (f := fun q => ENNReal.ofReal (1 / (1 / (Real.pi * r * r)) * chan i E) * (match hitOf Q (discAt u v c r d q) d with | none => 0 | some x => F x (-d))) (hbm.const_mul _)
    refine Eq.trans e1 ?_
    rw [lintegral_const_mul _ hbm, h.swept.over hF ho (F := fun x => F x (-d)) hFj]
    have hall : Measurable fun x : Spot => glare Q vertex i node (.beam E d junk) x * (slant vertex x (toward (.beam E d junk) x) * F x (toward (.beam E d junk) x)) := hgm.mul ((hF.measurable_slant.at htm).mul (hFm.at htm))
    rw [lintegral_surf hall, ← mul_assoc, ← List.sum_map_mul_left]
    refine congrArg List.sum (List.map_congr_left fun g hg => ?_)
    rw [← mul_assoc, ← ENNReal.ofReal_mul (by positivity), mul_comm (ENNReal.ofReal _) (ENNReal.ofReal (1 / (r * r))), ← ENNReal.ofReal_mul (by positivity),
      show 1 / (r * r) * (1 / Real.pi * (1 / (1 / (Real.pi * r * r)) * chan i E)) = chan i E by have := Real.pi_pos.ne'; field_simp,
      ← lintegral_const_mul' _ _ ENNReal.ofReal_ne_top]
    refine lintegral_congr_ae (((inside_ae g.2).and (h.seen g hg)).mono fun x hx => ?_)
    obtain ⟨hx, hv⟩ := hx
    beta_reduce
    rw [glare_beam, toward_beam, hF.slant_eq hg hx, V3.dot_neg_right, abs_neg]
    dsimp only
    by_cases hs : hitOf Q (x - (V3.dot (x - c) d + r) • d) d = some (g.1, x)
    · rw [if_pos hs, if_pos (hv.mpr hs)]
    · rw [if_neg hs, if_neg fun hc => hs (hv.mp hc), mul_zero, mul_zero, zero_mul]
  · refine (disk_null (h.swept.almost hF ho hR)).mono fun p hp => Filter.Eventually.of_forall fun q => ?_
    exact ⟨_, _, _, hone _, nonneg_smul (by positivity) h.nonneg, h.unit, hp⟩

end LM.Transport
