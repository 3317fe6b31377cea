import Verif.Model.Surface
import Verif.Props.C32_Math
import Verif.Props.C35_Intersect
namespace LM.Surface
open LM LM.MathF

/-! ### C43 -/

theorem sqrt_inv_mul (x : ℝ) (hx : 0 < x) : (1 / Real.sqrt x) * (1 / Real.sqrt x) = 1 / x := by
  rw [div_mul_div_comm, Real.mul_self_sqrt hx.le, one_mul]

theorem dot_self_nonneg (a : V3 ℝ) : 0 ≤ V3.dot a a := by
  unfold V3.dot; nlinarith [mul_self_nonneg a.x, mul_self_nonneg a.y, mul_self_nonneg a.z]

theorem dot_self_pos {a : V3 ℝ} (h : V3.dot a a ≠ 0) : 0 < V3.dot a a := lt_of_le_of_ne (dot_self_nonneg a) (Ne.symm h)

theorem dot_sub_swap (a b : V3 ℝ) : V3.dot (a - b) (a - b) = V3.dot (b - a) (b - a) := by unfold V3.dot; simp only [V3.sub_x, V3.sub_y, V3.sub_z]; ring

theorem smul_sub_swap (c : ℝ) (a b : V3 ℝ) : c • (a - b) = -(c • (b - a)) := by ext <;> simp <;> ring

/-- C43. The geometry term is symmetric, for all kinds of points. -/
theorem C43_symmetric (s1 s2 : Geom) : geometryTerm s1 s2 = geometryTerm s2 s1 := by
  unfold geometryTerm
  cases h1 : s1.infinite <;> cases h2 : s2.infinite <;> simp only [Bool.and_self, Bool.and_false, Bool.false_and, Bool.or_self, Bool.or_false, Bool.or_true, Bool.false_eq_true, if_false, if_true]
  · rw [dot_sub_swap s1.p s2.p]
    split
    · rfl
    · rw [smul_sub_swap _ s1.p s2.p]
      simp only [neg_neg, V3.dot_neg_right, abs_neg]
      congr 1
      ring
  · simp only [neg_neg, V3.dot_neg_right, abs_neg, mul_comm]
  · simp only [neg_neg, V3.dot_neg_right, abs_neg, mul_comm]

/-- C43. It is never negative. -/
theorem C43_nonneg (s1 s2 : Geom) (G : ℝ) (h : geometryTerm s1 s2 = some G) : 0 ≤ G := by
  unfold geometryTerm at h
  simp only at h
  have c1 : ∀ (b : Bool) (x : ℝ), 0 ≤ (if b = true then 1 else |x|) := by intro b x; split <;> positivity
  split at h
  · cases h; exact le_refl _
  · split at h
    · cases h
      rw [div_one]
      exact mul_nonneg (c1 _ _) (c1 _ _)
    · split at h
      · cases h
      · cases h
        exact div_nonneg (mul_nonneg (c1 _ _) (c1 _ _)) (dot_self_nonneg _)

/-- The cosine factor at a point: absent at degenerate points. -/
noncomputable def cosAt (s : Geom) (w : V3 ℝ) : ℝ := if s.degenerated then 1 else |V3.dot s.n w|

/-- C43. Between distinct finite points it is cos·cos / distance², with the cosine dropped at degenerate points. -/
theorem C43_formula (s1 s2 : Geom) (h1 : s1.infinite = false) (h2 : s2.infinite = false) (hne : s1.p ≠ s2.p) (w : V3 ℝ) (hw : V3.dot w w = 1)
    (hdir : s2.p - s1.p = distance s1 s2 • w) : geometryTerm s1 s2 = some (cosAt s1 w * cosAt s2 w / distance s1 s2 ^ 2) := by
  have hd2 : distance s1 s2 ^ 2 = V3.dot (s2.p - s1.p) (s2.p - s1.p) := by
    unfold distance
    simp only [h1, h2, Bool.or_self, Bool.false_eq_true, if_false]
    rw [Real.sq_sqrt (dot_self_nonneg _), dot_sub_swap]
  have hL : V3.dot (s2.p - s1.p) (s2.p - s1.p) ≠ 0 := by
    intro h
    apply hne
    unfold V3.dot at h
    have hx := mul_self_nonneg (s2.p - s1.p).x
    have hy := mul_self_nonneg (s2.p - s1.p).y
    have hz := mul_self_nonneg (s2.p - s1.p).z
    have a : (s2.p - s1.p).x = 0 := by nlinarith
    have b : (s2.p - s1.p).y = 0 := by nlinarith
    have c : (s2.p - s1.p).z = 0 := by nlinarith
    simp only [V3.sub_x, V3.sub_y, V3.sub_z] at a b c
    ext <;> linarith
  have hpos := dot_self_pos hL
  have hd0 : 0 ≤ distance s1 s2 := by unfold distance; split <;> positivity
  have hsq : Real.sqrt (V3.dot (s2.p - s1.p) (s2.p - s1.p)) = distance s1 s2 := by rw [← hd2, Real.sqrt_sq hd0]
  have hdp : 0 < distance s1 s2 := by rw [← hsq]; exact Real.sqrt_pos.mpr hpos
  have hunit : (1 / Real.sqrt (V3.dot (s2.p - s1.p) (s2.p - s1.p))) • (s2.p - s1.p) = w := by
    rw [hsq]
    conv_lhs => rw [hdir]
    ext <;> simp <;> field_simp
  unfold geometryTerm
  simp only [h1, h2, Bool.and_self, Bool.or_self, Bool.or_false, Bool.false_eq_true, if_false, if_neg hL]
  rw [hunit, ← hd2]
  simp only [cosAt, V3.dot_neg_right, abs_neg]

/-- C43. With one point at infinity it is the cosine at the other point against the direction of the infinite one (1 at a degenerate point); between two such points it is zero. -/
theorem C43_infinite (s1 s2 : Geom) : (s1.infinite = true → s2.infinite = true → geometryTerm s1 s2 = some 0) ∧
    (s1.infinite = false → s2.infinite = true → geometryTerm s1 s2 = some (cosAt s1 s2.wo)) := by
  constructor
  · intro h1 h2; unfold geometryTerm; simp [h1, h2]
  · intro h1 h2
    unfold geometryTerm cosAt
    simp only [h1, h2, Bool.false_and, Bool.false_eq_true, if_false, Bool.false_or, Bool.or_true, if_true, mul_one, div_one, Bool.or_false, V3.dot_neg_right, abs_neg]

/-- C43. Conversion to projected solid angle: multiplying by the cosine recovers the density away from grazing angles, at grazing angles it is zero (not infinite), and at degenerate points
    the density is unchanged. -/
theorem C43_convert (pdf : ℝ) (g : Geom) (d : V3 ℝ) :
    (g.degenerated = true → convertSAtoProjSA pdf g d = pdf) ∧
    (g.degenerated = false → V3.dot g.n d ≠ 0 → convertSAtoProjSA pdf g d * |V3.dot g.n d| = pdf) ∧
    (g.degenerated = false → V3.dot g.n d = 0 → convertSAtoProjSA pdf g d = 0) := by
  unfold convertSAtoProjSA
  refine ⟨fun h => by simp [h], fun h hn => ?_, fun h hn => by simp [h, hn]⟩
  have : |V3.dot g.n d| ≠ 0 := abs_ne_zero.mpr hn
  simp only [h, Bool.false_eq_true, if_false, if_neg this]
  field_simp

/-- C43. Area density along a connection: converting a solid angle density at x to projected solid angle and then to area measure at y gives pdf · cos_y / dist². -/
theorem C43_to_area (pdf : ℝ) (x y : Geom) (h1 : x.infinite = false) (h2 : y.infinite = false) (hne : x.p ≠ y.p) (w : V3 ℝ) (hw : V3.dot w w = 1)
    (hdir : y.p - x.p = distance x y • w) (hg : x.degenerated = true ∨ V3.dot x.n w ≠ 0) :
    convertToArea (convertSAtoProjSA pdf x w) x y = some (pdf * cosAt y w / distance x y ^ 2) := by
  unfold convertToArea
  rw [C43_formula x y h1 h2 hne w hw hdir, Option.map_some]
  congr 1
  obtain ⟨a, b, _⟩ := C43_convert pdf x w
  cases hd : x.degenerated with
  | true =>
    have hc : cosAt x w = 1 := by simp [cosAt, hd]
    rw [a hd, hc]; ring
  | false =>
    have hn : V3.dot x.n w ≠ 0 := by rcases hg with h | h; · rw [hd] at h; cases h
                                     · exact h
    have hb := b hd hn
    have hc : cosAt x w = |V3.dot x.n w| := by simp [cosAt, hd]
    rw [hc]
    conv_rhs => rw [← hb]
    ring

example : geometryTerm (makeOnSurface ⟨0, 0, 0⟩ ⟨0, 0, 1⟩ ⟨0, 0, 1⟩ false 0) (makeDegenerated ⟨0, 0, 2⟩ 0) = some (1 / 4) := by
  have hd : distance (makeOnSurface ⟨0, 0, 0⟩ ⟨0, 0, 1⟩ ⟨0, 0, 1⟩ false 0) (makeDegenerated ⟨0, 0, 2⟩ 0) = 2 := by
    norm_num [distance, makeOnSurface, makeDegenerated, V3.dot]
    rw [show (4 : ℝ) = 2 ^ 2 by norm_num, Real.sqrt_sq (by norm_num)]
  rw [C43_formula _ _ rfl rfl (by intro h; have := congrArg V3.z h; norm_num [makeOnSurface, makeDegenerated] at this) ⟨0, 0, 1⟩ (by norm_num [V3.dot]) (by
    rw [hd]; ext <;> norm_num [makeOnSurface, makeDegenerated]), hd]
  norm_num [cosAt, makeOnSurface, makeDegenerated, V3.dot]

/-! ### C44 -/

/-- Sides agree: each direction is strictly on the same side of the shading and of the geometric surface. -/
def SameSide (g : Geom) (w : V3 ℝ) : Prop := 0 < V3.dot w g.gn * V3.dot w g.n

open Classical in
theorem snc_eq (g : Geom) (wi wo : V3 ℝ) (dir : TransDir) : shadingNormalCorrection g wi wo dir =
    if ¬ (SameSide g wi ∧ SameSide g wo) then 0 else if dir = .LE then V3.dot wi g.n * V3.dot wo g.gn / (V3.dot wo g.n * V3.dot wi g.gn) else 1 := by
  unfold shadingNormalCorrection SameSide localCos toLocal
  simp only [V3.dot_comm g.n]
  by_cases h : V3.dot wi g.gn * V3.dot wi g.n ≤ 0 ∨ V3.dot wo g.gn * V3.dot wo g.n ≤ 0
  · rw [if_pos h, if_pos]
    rintro ⟨a, b⟩
    rcases h with h | h <;> linarith
  · rw [if_neg h]
    push Not at h
    rw [if_neg (not_not.mpr h)]

/-- C44. The factor is zero exactly if some direction is not on the same side of both surfaces, for either transport direction. -/
theorem C44_zero_iff (g : Geom) (wi wo : V3 ℝ) (dir : TransDir) : shadingNormalCorrection g wi wo dir = 0 ↔ ¬ (SameSide g wi ∧ SameSide g wo) := by
  rw [snc_eq]
  split
  · next h => simp [h]
  · next h =>
    rw [not_not] at h
    have hi : V3.dot wi g.gn ≠ 0 ∧ V3.dot wi g.n ≠ 0 := by constructor <;> (intro e; have := h.1; unfold SameSide at this; rw [e] at this; simp at this)
    have ho : V3.dot wo g.gn ≠ 0 ∧ V3.dot wo g.n ≠ 0 := by constructor <;> (intro e; have := h.2; unfold SameSide at this; rw [e] at this; simp at this)
    refine iff_of_false ?_ (not_not.mpr h)
    split
    · exact div_ne_zero (mul_ne_zero hi.2 ho.1) (mul_ne_zero ho.2 hi.1)
    · exact one_ne_zero

/-- C44. It is 1 when shading and geometric normal agree and neither direction is grazing. -/
theorem C44_same_normals (g : Geom) (h : g.n = g.gn) (wi wo : V3 ℝ) (hi : V3.dot wi g.n ≠ 0) (ho : V3.dot wo g.n ≠ 0) (dir : TransDir) : shadingNormalCorrection g wi wo dir = 1 := by
  rw [snc_eq, if_neg]
  · split
    · rw [h, mul_comm (V3.dot wo g.gn)]
      rw [h] at hi ho
      exact div_self (mul_ne_zero hi ho)
    · rfl
  · rw [not_not]
    unfold SameSide
    rw [← h]
    exact ⟨mul_self_pos.mpr hi, mul_self_pos.mpr ho⟩

/-- C44. Adjointness: whenever the factors do not vanish, the light-direction factor for (wi, wo) is the eye-direction factor for (wo, wi) times the ratio of cosines that turns one
    side's measure into the other's, it is positive, and scattering forward and backward compensates. -/
theorem C44_adjoint (g : Geom) (wi wo : V3 ℝ) :
    shadingNormalCorrection g wi wo .LE * (|V3.dot wo g.n| * |V3.dot wi g.gn|) = shadingNormalCorrection g wo wi .EL * (|V3.dot wi g.n| * |V3.dot wo g.gn|) ∧
    0 ≤ shadingNormalCorrection g wi wo .LE ∧
    shadingNormalCorrection g wi wo .LE * shadingNormalCorrection g wo wi .LE = shadingNormalCorrection g wi wo .EL := by
  simp only [snc_eq]
  by_cases h : SameSide g wi ∧ SameSide g wo
  · have h' : SameSide g wo ∧ SameSide g wi := ⟨h.2, h.1⟩
    simp only [h, h', not_true_eq_false, if_false, if_true, reduceCtorEq, and_self]
    have hi := h.1
    have ho := h.2
    unfold SameSide at hi ho
    have i1 : V3.dot wi g.gn ≠ 0 := by intro e; rw [e] at hi; simp at hi
    have i2 : V3.dot wi g.n ≠ 0 := by intro e; rw [e] at hi; simp at hi
    have o1 : V3.dot wo g.gn ≠ 0 := by intro e; rw [e] at ho; simp at ho
    have o2 : V3.dot wo g.n ≠ 0 := by intro e; rw [e] at ho; simp at ho
    have hnn : 0 < V3.dot wi g.n * V3.dot wo g.gn / (V3.dot wo g.n * V3.dot wi g.gn) := by
      have : V3.dot wi g.n * V3.dot wo g.gn / (V3.dot wo g.n * V3.dot wi g.gn) = (V3.dot wi g.gn * V3.dot wi g.n) * (V3.dot wo g.gn * V3.dot wo g.n) / (V3.dot wo g.n * V3.dot wi g.gn) ^ 2 := by
        field_simp
      rw [this]
      positivity
    refine ⟨?_, hnn.le, ?_⟩
    · rw [one_mul, ← abs_mul, ← abs_mul]
      conv_lhs => rw [← abs_of_pos hnn]
      rw [← abs_mul]
      congr 1
      field_simp
    · field_simp
  · have h' : ¬ (SameSide g wo ∧ SameSide g wi) := fun e => h ⟨e.2, e.1⟩
    simp [h, h']

/-- Remark: at exactly grazing directions the factor is 0 even for equal normals (the scattered energy is 0 there as well). -/
theorem C44_boundary_grazing (g : Geom) (wi wo : V3 ℝ) (h : V3.dot wi g.n = 0) (dir : TransDir) : shadingNormalCorrection g wi wo dir = 0 := by
  rw [C44_zero_iff]
  unfold SameSide
  rw [h]
  simp

example : SameSide (makeOnSurface 0 ⟨0, 0, 1⟩ ⟨0, 3/5, 4/5⟩ false 0) ⟨0, 0, 1⟩ := by norm_num [SameSide, makeOnSurface, V3.dot]

/-! ### C32: the frame at a surface point -/

/-- C32. At a surface point with unit normal, local and world coordinates are mutually inverse, lengths are preserved, and the local z axis is the normal. -/
theorem C32_surface_frame (p n gn junk : V3 ℝ) (nz : Bool) (h : V3.dot n n = 1) (w : V3 ℝ) :
    let g := makeOnSurface p n gn nz junk
    toLocal g (toWorld g w) = w ∧ toWorld g (toLocal g w) = w ∧ V3.dot (toLocal g w) (toLocal g w) = V3.dot w w ∧ toLocal g n = ⟨0, 0, 1⟩ ∧ (toLocal g w).z = V3.dot n w := by
  intro g
  have ho : Orthonormal g.u g.v g.n := C32_basis n nz h
  obtain ⟨uu, vv, nn, uv, un, vn, hc⟩ := id ho
  have hl : toLocal g (toWorld g w) = w := by
    have e1 : V3.dot g.v g.u = 0 := by rw [V3.dot_comm]; exact uv
    have e2 : V3.dot g.n g.u = 0 := by rw [V3.dot_comm]; exact un
    have e3 : V3.dot g.n g.v = 0 := by rw [V3.dot_comm]; exact vn
    unfold toLocal toWorld
    ext <;> simp only [V3.dot_add_right, V3.dot_smul_right, uu, vv, nn, uv, un, vn, e1, e2, e3] <;> ring
  have hw : toWorld g (toLocal g w) = w := by
    have r1 : V3.dot (w - toWorld g (toLocal g w)) g.u = 0 := by
      have e1 : V3.dot g.v g.u = 0 := by rw [V3.dot_comm]; exact uv
      have e2 : V3.dot g.n g.u = 0 := by rw [V3.dot_comm]; exact un
      simp only [toWorld, toLocal, V3.dot_sub_left, V3.dot_add_left, V3.dot_smul_left, uu, e1, e2, V3.dot_comm w]; ring
    have r2 : V3.dot (w - toWorld g (toLocal g w)) g.v = 0 := by
      have e2 : V3.dot g.n g.v = 0 := by rw [V3.dot_comm]; exact vn
      simp only [toWorld, toLocal, V3.dot_sub_left, V3.dot_add_left, V3.dot_smul_left, vv, uv, e2, V3.dot_comm w]; ring
    have r3 : V3.dot (w - toWorld g (toLocal g w)) g.n = 0 := by
      simp only [toWorld, toLocal, V3.dot_sub_left, V3.dot_add_left, V3.dot_smul_left, nn, un, vn, V3.dot_comm w]; ring
    have cramer : ∀ r : V3 ℝ, V3.dot g.n (V3.cross g.u g.v) • r = V3.dot r g.u • V3.cross g.v g.n + V3.dot r g.v • V3.cross g.n g.u + V3.dot r g.n • V3.cross g.u g.v := by
      intro r; ext <;> simp [V3.dot, V3.cross] <;> ring
    have h0 := cramer (w - toWorld g (toLocal g w))
    rw [r1, r2, r3, hc, nn] at h0
    have hx := congrArg V3.x h0
    have hy := congrArg V3.y h0
    have hz := congrArg V3.z h0
    simp at hx hy hz
    ext <;> linarith
  refine ⟨hl, hw, ?_, ?_, rfl⟩
  · have := (C32_frame g.u g.v g.n (toLocal g w) (toLocal g w) ho).1
    change V3.dot (toWorld g (toLocal g w)) (toWorld g (toLocal g w)) = _ at this
    rw [hw] at this
    exact this.symm
  · unfold toLocal
    have : g.n = n := rfl
    rw [this] at un vn nn
    ext
    · exact un
    · exact vn
    · exact nn

/-- C32. The two-sided basis is a right-handed orthonormal frame whose normal faces the given direction. -/
theorem C32_twosided (p n gn junk wi : V3 ℝ) (nz : Bool) (h : V3.dot n n = 1) :
    let b := basisTwosided (makeOnSurface p n gn nz junk) wi
    Orthonormal b.2.1 b.2.2 b.1 ∧ 0 ≤ V3.dot wi b.1 ∧ (b.1 = n ∨ b.1 = -n) := by
  intro b
  have ho : Orthonormal (orthonormalBasis n nz).1 (orthonormalBasis n nz).2 n := C32_basis n nz h
  have hb : b = if V3.dot wi n > 0 then (n, (orthonormalBasis n nz).1, (orthonormalBasis n nz).2) else (-n, (orthonormalBasis n nz).1, -(orthonormalBasis n nz).2) := rfl
  rw [hb]
  split
  · next hw => exact ⟨ho, hw.le, .inl rfl⟩
  · next hw =>
    obtain ⟨uu, vv, nn, uv, un, vn, hc⟩ := ho
    refine ⟨⟨uu, ?_, ?_, ?_, ?_, ?_, ?_⟩, ?_, .inr rfl⟩
    · simp only [V3.dot_neg_left, V3.dot_neg_right, neg_neg]; exact vv
    · simp only [V3.dot_neg_left, V3.dot_neg_right, neg_neg]; exact nn
    · simp only [V3.dot_neg_right, uv, neg_zero]
    · simp only [V3.dot_neg_right, un, neg_zero]
    · simp only [V3.dot_neg_left, V3.dot_neg_right, neg_neg]; exact vn
    · conv_rhs => rw [← hc]
      ext <;> simp [V3.cross] <;> ring
    · simp only [V3.dot_neg_right]; linarith [not_lt.mp hw]

/-! ### C73: visibility -/

/-- The open segment between two points meets no surface. -/
def Clear (S : Set (V3 ℝ)) (p q : V3 ℝ) : Prop := ∀ s : ℝ, 0 < s → s < 1 → p + s • (q - p) ∉ S

theorem dir_point (p q : V3 ℝ) (d t : ℝ) (hd : d ≠ 0) : p + t • ((1 / d) • (q - p)) = p + (t / d) • (q - p) := by
  ext <;> simp <;> field_simp

/-- C73. The order of the arguments does not matter when one point is at infinity. -/
theorem C73_infinite_symmetric (S : Set (V3 ℝ)) (s1 s2 : Geom) (h : s1.infinite ≠ s2.infinite) : visible S s1 s2 ↔ visible S s2 s1 := by
  unfold visible
  cases h1 : s1.infinite <;> cases h2 : s2.infinite <;> simp_all

/-- C73. Two distinct finite points with nothing strictly between them are mutually visible. -/
theorem C73_clear (S : Set (V3 ℝ)) (s1 s2 : Geom) (h1 : s1.infinite = false) (h2 : s2.infinite = false) (hne : V3.dot (s2.p - s1.p) (s2.p - s1.p) ≠ 0) (hc : Clear S s1.p s2.p) : visible S s1 s2 := by
  unfold visible visible1
  simp only [h1, h2, Bool.false_eq_true, if_false]
  rintro ⟨t, t1, t2, ht⟩
  have hdp : 0 < Real.sqrt (V3.dot (s2.p - s1.p) (s2.p - s1.p)) := Real.sqrt_pos.mpr (dot_self_pos hne)
  rw [dir_point _ _ _ _ hdp.ne'] at ht
  have he : (0 : ℝ) < Eps := by norm_num [Eps]
  refine hc (t / Real.sqrt (V3.dot (s2.p - s1.p) (s2.p - s1.p))) (div_pos (by linarith) hdp) ?_ ht
  rw [div_lt_one hdp]
  nlinarith

/-- C73 (partial). An occluder that keeps the distances Eps and Eps·d from both end points blocks visibility in either direction. Missing: occluders closer to an end (next theorem). -/
theorem C73_blocked_partial (S : Set (V3 ℝ)) (s1 s2 : Geom) (h1 : s1.infinite = false) (h2 : s2.infinite = false) (d : ℝ) (hd : d = Real.sqrt (V3.dot (s2.p - s1.p) (s2.p - s1.p))) (hpos : 0 < d)
    (t : ℝ) (a1 : Eps ≤ t) (a2 : Eps * d ≤ t) (a3 : t ≤ d - Eps) (a4 : t ≤ d - Eps * d) (ht : s1.p + (t / d) • (s2.p - s1.p) ∈ S) : ¬ visible S s1 s2 ∧ ¬ visible S s2 s1 := by
  constructor
  · unfold visible visible1
    simp only [h1, h2, Bool.false_eq_true, if_false, ← hd, not_not]
    exact ⟨t, a1, by linarith, by rw [dir_point _ _ _ _ hpos.ne']; exact ht⟩
  · unfold visible visible1
    simp only [h1, h2, Bool.false_eq_true, if_false, dot_sub_swap s1.p s2.p, ← hd, not_not]
    refine ⟨d - t, by linarith, by linarith, ?_⟩
    rw [dir_point _ _ _ _ hpos.ne']
    have : s2.p + ((d - t) / d) • (s1.p - s2.p) = s1.p + (t / d) • (s2.p - s1.p) := by ext <;> simp <;> field_simp <;> ring
    rw [this]; exact ht

/-- C73, negation. Visibility is not symmetric: the lower end of the query is absolute (Eps) and the upper end relative (Eps·d). Points at distance 10 with an occluder 0.005 from the first
    one see each other in one direction only. -/
theorem C73_negation_asymmetric : ∃ (S : Set (V3 ℝ)) (s1 s2 : Geom), s1.infinite = false ∧ s2.infinite = false ∧ ¬ visible S s1 s2 ∧ visible S s2 s1 := by
  have hs : Real.sqrt 100 = 10 := by rw [show (100 : ℝ) = 10 ^ 2 by norm_num, Real.sqrt_sq (by norm_num)]
  refine ⟨{⟨1/200, 0, 0⟩}, makeDegenerated ⟨0, 0, 0⟩ 0, makeDegenerated ⟨10, 0, 0⟩ 0, rfl, rfl, ?_, ?_⟩
  · have e : V3.dot ((⟨10, 0, 0⟩ : V3 ℝ) - ⟨0, 0, 0⟩) (⟨10, 0, 0⟩ - ⟨0, 0, 0⟩) = 100 := by norm_num [V3.dot]
    simp only [visible, visible1, makeDegenerated, Bool.false_eq_true, if_false, e, hs, not_not]
    refine ⟨1/200, by norm_num [Eps], by norm_num [Eps], ?_⟩
    rw [Set.mem_singleton_iff]
    ext <;> norm_num
  · have e : V3.dot ((⟨0, 0, 0⟩ : V3 ℝ) - ⟨10, 0, 0⟩) (⟨0, 0, 0⟩ - ⟨10, 0, 0⟩) = 100 := by norm_num [V3.dot]
    simp only [visible, visible1, makeDegenerated, Bool.false_eq_true, if_false, e, hs]
    rintro ⟨t, t1, t2, ht⟩
    rw [Set.mem_singleton_iff] at ht
    have hx := congrArg V3.x ht
    simp at hx
    norm_num [Eps] at t2
    linarith

/-! ### C74: transformed geometry -/

section Aff
variable {K : Type} [Field K]

/-- C74. Interpolating and transforming commute: the reported surface position (transform of the interpolated mesh point) is the interpolation of the transformed vertices. -/
theorem C74_affine (A : Aff K) (p1 p2 p3 : V3 K) (u v : K) : A.app ((1 - u - v) • p1 + u • p2 + v • p3) = (1 - u - v) • A.app p1 + u • A.app p2 + v • A.app p3 := by
  ext <;> simp [Aff.app, Aff.lin] <;> ring

/-- C74. Normals transform so that they stay perpendicular to transformed tangents; more precisely the product with a transformed vector is preserved. -/
theorem C74_normal (A : Aff K) (h : A.det ≠ 0) (n t : V3 K) : V3.dot (A.normalM n) (A.lin t) = V3.dot n t := by
  have key : V3.dot (n.x • V3.cross A.c2 A.c3 + n.y • V3.cross A.c3 A.c1 + n.z • V3.cross A.c1 A.c2) (A.lin t) = A.det * V3.dot n t := by
    simp [V3.dot, V3.cross, Aff.lin, Aff.det]; ring
  unfold Aff.normalM
  rw [V3.dot_smul_left, key]
  field_simp

/-- C74. The transformed geometric normal of a triangle is the cross product of the transformed edges divided by the determinant: it flips exactly for orientation-reversing transforms. -/
theorem C74_triangle_normal (A : Aff K) (h : A.det ≠ 0) (e1 e2 : V3 K) : A.det • A.normalM (V3.cross e1 e2) = V3.cross (A.lin e1) (A.lin e2) := by
  unfold Aff.normalM
  rw [smul_smul, mul_one_div_cancel h, one_smul]
  ext <;> simp [V3.cross, Aff.lin] <;> ring
end Aff

/-- C74. A reported hit lies on the ray: for a mesh triangle under any transform, if the acceleration structure (which tests the transformed vertices) reports distance t and barycentric
    coordinates (u, v), the transform of the mesh's interpolated point is the ray's point at t. -/
theorem C74_hit_on_ray (A : Aff ℚ) (p1 p2 p3 : V3 ℚ) (r : Bound.Ray) (tl th : ℚ) (h : Bvh.Hit) (hit : (Bvh.Tri.mk' (A.app p1) (A.app p2) (A.app p3)).intersect r tl th = some h) :
    A.app (mixBarycentric p1 p2 p3 h.u h.v) = r.o + h.t • r.d := by
  rw [← (Bvh.C35_sound _ _ _ r tl th h hit).2.2.2]
  exact C74_affine A p1 p2 p3 h.u h.v

example : ∃ A : Aff ℚ, A.det ≠ 0 ∧ A.det ≠ 1 := ⟨⟨⟨2, 0, 0⟩, ⟨0, 1, 0⟩, ⟨0, 0, 1⟩, ⟨1, 1, 1⟩⟩, by norm_num [Aff.det, V3.dot, V3.cross], by norm_num [Aff.det, V3.dot, V3.cross]⟩

/-! ### C75: local trigonometry -/

/-- C75. For unit directions in local coordinates the trigonometric helpers are consistent: sin² + cos² = 1, sin is not negative, tan · cos = sin and tan2 = tan² unless the direction is in the plane. -/
theorem C75_local_trig (d : V3 ℝ) (h : V3.dot d d = 1) :
    localSin d ^ 2 + localCos d ^ 2 = 1 ∧ 0 ≤ localSin d ∧ (d.z ≠ 0 → localTan d * localCos d = localSin d ∧ localTan2 d = localTan d ^ 2) := by
  have hz : 0 ≤ 1 - d.z * d.z := by unfold V3.dot at h; nlinarith [mul_self_nonneg d.x, mul_self_nonneg d.y]
  have hs : localSin d = Real.sqrt (1 - d.z * d.z) := by unfold localSin; exact safeSqrt_of_nonneg hz
  refine ⟨?_, safeSqrt_nonneg _, fun hne => ⟨?_, ?_⟩⟩
  · rw [hs, Real.sq_sqrt hz]; unfold localCos; ring
  · unfold localTan localCos
    rw [hs]
    simp only
    split
    · next hle =>
      have : 1 - d.z * d.z = 0 := le_antisymm hle hz
      rw [this]; simp
    · field_simp
  · unfold localTan localTan2
    simp only [if_neg hne]
    split
    · simp
    · rw [div_pow, Real.sq_sqrt hz]; ring

/-- Remark: in the plane (z = 0) the squared tangent is the constant 1e10. -/
theorem C75_boundary_plane (d : V3 ℝ) (h : d.z = 0) : localTan2 d = 10 ^ 10 := by simp [localTan2, h]

end LM.Surface
