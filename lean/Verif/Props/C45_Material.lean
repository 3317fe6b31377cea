import Verif.Model.Material
import Verif.Props.C32_Math
import Verif.Props.C28_Dist
import Verif.Props.C43_Surface
import Mathlib.Algebra.Order.BigOperators.Group.List
namespace LM.Material
open LM LM.MathF LM.Surface

/-! ### Specification -/

/-- A surface point with a proper frame (what make_on_surface produces for a unit normal, C32). -/
def OnSurface (g : Geom) : Prop := Orthonormal g.u g.v g.n

/-- Random numbers in [0,1). -/
def DirU.Valid (u : DirU) : Prop := (0 ≤ u.ud0 ∧ u.ud0 < 1) ∧ (0 ≤ u.ud1 ∧ u.ud1 < 1) ∧ (0 ≤ u.udc0 ∧ u.udc0 < 1)

/-- Sampling component `comp` at g for wi is a correct importance sampler with respect to the material's own density and BSDF:
    the weight is always defined, and where a direction is returned it is a unit vector, its density is positive and weight · density = BSDF. -/
def EstimatesAt (m : Mat) (comp : Nat) (g : Geom) (wi : V3 ℝ) : Prop :=
  ∀ (us : DirU) (dir : TransDir), us.Valid →
    match m.sampleDirection us g wi comp dir with
    | .fail => True
    | .undef => False
    | .ok wo C => V3.dot wo wo = 1 ∧ ∃ p f, m.pdfDirection g wi wo comp false = some p ∧ m.eval g wi wo comp dir false = some f ∧ 0 < p ∧ p • C = f

/-- The density and BSDF are defined for every unit direction, and the density is not negative. -/
def Defined (m : Mat) (comp : Nat) (g : Geom) (wi : V3 ℝ) : Prop :=
  ∀ wo, V3.dot wo wo = 1 → (∃ p, m.pdfDirection g wi wo comp false = some p ∧ 0 ≤ p) ∧ ∀ dir, ∃ f, m.eval g wi wo comp dir false = some f

/-- Component selection: the chosen component has positive probability, and the weight is the reciprocal of the reported probability. -/
def SelectsAt (m : Mat) (g : Geom) (wi : V3 ℝ) : Prop :=
  ∀ u, 0 ≤ u → u < 1 → ∃ comp w p, m.sampleComponent u g wi = some (comp, w) ∧ m.pdfComponent comp g wi = some p ∧ 0 < p ∧ w * p = 1

/-! ### Lemmas -/

theorem weightOf_ok (wo f : V3 ℝ) (p : ℝ) (h : 0 < p) : ∃ C, weightOf wo (some f) (some p) = .ok wo C ∧ p • C = f := by
  refine ⟨(1 / p) • f, by simp [weightOf, divV, h.ne'], ?_⟩
  rw [smul_smul, mul_one_div_cancel h.ne', one_smul]

theorem twosided (g : Geom) (wi : V3 ℝ) (h : OnSurface g) (hw : V3.dot wi g.n ≠ 0) : ∃ n u v, basisTwosided g wi = (n, u, v) ∧ Orthonormal u v n ∧ 0 < V3.dot wi n ∧
    ((n = g.n ∧ u = g.u ∧ v = g.v ∧ 0 < V3.dot wi g.n) ∨ (n = -g.n ∧ u = g.u ∧ v = -g.v ∧ V3.dot wi g.n < 0)) := by
  unfold basisTwosided
  split
  · next hp => exact ⟨_, _, _, rfl, h, hp, .inl ⟨rfl, rfl, rfl, hp⟩⟩
  · next hp =>
    have hn : V3.dot wi g.n < 0 := lt_of_le_of_ne (not_lt.mp hp) hw
    refine ⟨_, _, _, rfl, ?_, by rw [V3.dot_neg_right]; linarith, .inr ⟨rfl, rfl, rfl, hn⟩⟩
    obtain ⟨uu, vv, nn, uv, un, vn, hc⟩ := h
    refine ⟨uu, ?_, ?_, ?_, ?_, ?_, ?_⟩
    · simp only [V3.dot_neg_left, V3.dot_neg_right, neg_neg]; exact vv
    · simp only [V3.dot_neg_left, V3.dot_neg_right, neg_neg]; exact nn
    · simp only [V3.dot_neg_right, uv, neg_zero]
    · simp only [V3.dot_neg_right, un, neg_zero]
    · simp only [V3.dot_neg_left, V3.dot_neg_right, neg_neg]; exact vn
    · conv_rhs => rw [← hc]
      ext <;> simp [V3.cross] <;> ring

theorem opposite_iff (g : Geom) (a b : V3 ℝ) : opposite g a b = false ↔ 0 < V3.dot a g.n * V3.dot b g.n := by simp [opposite]

theorem dot_self_zero {a : V3 ℝ} (h : V3.dot a a = 0) : a = 0 := by
  simp only [V3.dot] at h
  ext <;> simp <;> nlinarith [mul_self_nonneg a.x, mul_self_nonneg a.y, mul_self_nonneg a.z]

theorem normalize_some (v : V3 ℝ) (n : V3 ℝ) (h : V3.dot v n ≠ 0) : ∃ k : ℝ, 0 < k ∧ normalize v = some (k • v) ∧ V3.dot (k • v) (k • v) = 1 := by
  have h0 : V3.dot v v ≠ 0 := by
    intro e; rw [dot_self_zero e] at h; simp [V3.dot] at h
  have hp := dot_self_pos h0
  refine ⟨1 / Real.sqrt (V3.dot v v), by positivity, by simp [normalize, h0], ?_⟩
  rw [V3.dot_smul_left, V3.dot_smul_right, ← mul_assoc, sqrt_inv_mul _ hp]
  field_simp

/-- The side of wo relative to the two-sided normal. -/
theorem side_of (g : Geom) (wi wo n u v : V3 ℝ) (h : (n = g.n ∧ u = g.u ∧ v = g.v ∧ 0 < V3.dot wi g.n) ∨ (n = -g.n ∧ u = g.u ∧ v = -g.v ∧ V3.dot wi g.n < 0)) :
    0 < V3.dot wi g.n * V3.dot wo g.n ↔ 0 < V3.dot wo n := by
  rcases h with ⟨rfl, _, _, hp⟩ | ⟨rfl, _, _, hn⟩
  · exact mul_pos_iff_of_pos_left hp
  · rw [V3.dot_neg_right, mul_comm]
    constructor
    · intro h; by_contra hc; nlinarith
    · intro h; nlinarith

/-! ### C45 / C70: diffuse -/

theorem diffuse_sample (Kd : Geom → V3 ℝ) (g : Geom) (wi : V3 ℝ) (us : DirU) (comp : Nat) (dir : TransDir) (h : OnSurface g) (hw : V3.dot wi g.n ≠ 0) (hu : us.Valid) :
    ∃ wo, (diffuse Kd).sampleDirection us g wi comp dir = .ok wo (Kd g) ∧ V3.dot wo wo = 1 ∧ 0 < V3.dot wi g.n * V3.dot wo g.n := by
  obtain ⟨n, u, v, hb, ho, _, hside⟩ := twosided g wi h hw
  obtain ⟨c1, _, c3, _⟩ := C34_cosine us.ud0 us.ud1 hu.1.1 hu.1.2.le
  obtain ⟨f1, f2, _⟩ := C32_frame u v n (sampleCosineWeighted us.ud0 us.ud1) (sampleCosineWeighted us.ud0 us.ud1) ho
  refine ⟨_, by simp only [diffuse, hb]; rfl, by rw [f1, c1], ?_⟩
  rw [side_of g wi _ n u v hside, f2]
  exact c3 hu.1.2

/-- C45. Diffuse materials sample correctly. -/
theorem C45_diffuse (Kd : Geom → V3 ℝ) (g : Geom) (wi : V3 ℝ) (h : OnSurface g) (hw : V3.dot wi g.n ≠ 0) :
    (∀ comp, EstimatesAt (diffuse Kd) comp g wi) ∧ (∀ comp, Defined (diffuse Kd) comp g wi) ∧ SelectsAt (diffuse Kd) g wi := by
  refine ⟨fun comp us dir hu => ?_, fun comp wo _ => ⟨⟨_, rfl, by split <;> positivity⟩, fun dir => ⟨_, rfl⟩⟩, fun u _ _ => ⟨0, 1, 1, rfl, rfl, one_pos, by norm_num⟩⟩
  obtain ⟨wo, e, h1, h2⟩ := diffuse_sample Kd g wi us comp dir h hw hu
  rw [e]
  have hop := (opposite_iff g wi wo).mpr h2
  exact ⟨h1, _, _, rfl, rfl, by simp [hop, Real.pi_pos], by simp [hop]⟩

/-- C70. Diffuse reflection stays on the side of the incident direction. -/
theorem C70_diffuse (Kd : Geom → V3 ℝ) (g : Geom) (wi : V3 ℝ) (us : DirU) (comp : Nat) (dir : TransDir) (h : OnSurface g) (hw : V3.dot wi g.n ≠ 0) (hu : us.Valid) :
    ∃ wo C, (diffuse Kd).sampleDirection us g wi comp dir = .ok wo C ∧ 0 < V3.dot wi g.n * V3.dot wo g.n := by
  obtain ⟨wo, e, _, h2⟩ := diffuse_sample Kd g wi us comp dir h hw hu
  exact ⟨wo, _, e, h2⟩

/-! ### Mirror and mask -/

/-- C45. Mirror and mask sample correctly. -/
theorem C45_mirror_mask (g : Geom) (wi : V3 ℝ) (h : OnSurface g) (hi : V3.dot wi wi = 1) :
    (∀ comp, EstimatesAt mirror comp g wi ∧ EstimatesAt mask comp g wi) ∧ (∀ comp, Defined mirror comp g wi ∧ Defined mask comp g wi) ∧ SelectsAt mirror g wi ∧ SelectsAt mask g wi := by
  refine ⟨fun comp => ⟨fun us dir hu => ?_, fun us dir hu => ?_⟩, fun comp => ⟨fun wo _ => ⟨⟨1, rfl, by norm_num⟩, fun dir => ⟨_, rfl⟩⟩, fun wo _ => ⟨⟨1, rfl, by norm_num⟩, fun dir => ⟨_, rfl⟩⟩⟩,
    fun u _ _ => ⟨0, 1, 1, rfl, rfl, one_pos, by norm_num⟩, fun u _ _ => ⟨0, 1, 1, rfl, rfl, one_pos, by norm_num⟩⟩
  · refine ⟨by rw [(C33_reflection wi g.n h.2.2.1).1, hi], 1, V3.all 1, rfl, rfl, one_pos, one_smul _ _⟩
  · refine ⟨by simp only [V3.dot_neg_left, V3.dot_neg_right, neg_neg, hi], 1, V3.all 1, rfl, rfl, one_pos, one_smul _ _⟩

/-- C70. A mirror keeps the side, with the same angle to the normal; a mask passes straight through to the other side. -/
theorem C70_mirror_mask (g : Geom) (wi : V3 ℝ) (us : DirU) (comp : Nat) (dir : TransDir) (h : OnSurface g) :
    (∃ wo C, mirror.sampleDirection us g wi comp dir = .ok wo C ∧ V3.dot wo g.n = V3.dot wi g.n) ∧
    (∃ wo C, mask.sampleDirection us g wi comp dir = .ok wo C ∧ wo + wi = 0) :=
  ⟨⟨_, _, rfl, (C33_reflection wi g.n h.2.2.1).2.2.1⟩, ⟨_, _, rfl, by ext <;> simp⟩⟩

/-! ### Glossy -/

theorem glossy_defined (Ks : V3 ℝ) (ax ay : ℝ) (hax : 0 < ax) (hay : 0 < ay) (g : Geom) (wi wo : V3 ℝ) (h : OnSurface g) (hi : V3.dot wi wi = 1) (ho : V3.dot wo wo = 1)
    (hs : 0 < V3.dot wi g.n * V3.dot wo g.n) : (∃ p, glossyPdf ax ay g wi wo = some p ∧ 0 < p) ∧ ∃ f, glossyEval Ks ax ay g wi wo = some f := by
  have hw : V3.dot wi g.n ≠ 0 := by intro e; rw [e] at hs; simp at hs
  obtain ⟨n, u, v, hb, hon, hwi, hside⟩ := twosided g wi h hw
  have hwo := (side_of g wi wo n u v hside).mp hs
  have hop := (opposite_iff g wi wo).mpr hs
  have hn : 0 < V3.dot (wi + wo) n := by rw [V3.dot_add_left]; linarith
  obtain ⟨k, hk, hnorm, hunit⟩ := normalize_some (wi + wo) n hn.ne'
  have whn : 0 < V3.dot (k • (wi + wo)) n := by rw [V3.dot_smul_left]; positivity
  have wowh : 0 < V3.dot wo (k • (wi + wo)) := by
    have h0 : V3.dot (wi + wo) (wi + wo) ≠ 0 := by intro e; rw [dot_self_zero e] at hn; simp [V3.dot] at hn
    have hp := dot_self_pos h0
    rw [V3.dot_smul_right, V3.dot_add_right]
    rw [V3.dot_add_left, V3.dot_add_right, V3.dot_add_right, hi, ho, V3.dot_comm wi wo] at hp
    rw [ho]
    apply mul_pos hk
    linarith
  have hD : ∃ D, normalDist ax ay (k • (wi + wo)) u v n = some D ∧ 0 < D := by
    have : 0 < Real.pi * ax * ay * ((V3.dot (k • (wi + wo)) u / ax) ^ 2 + (V3.dot (k • (wi + wo)) v / ay) ^ 2 + V3.dot (k • (wi + wo)) n ^ 2) ^ 2 := by
      have := Real.pi_pos
      positivity
    exact ⟨_, by simp only [normalDist, divF, if_neg this.ne'], one_div_pos.mpr this⟩
  obtain ⟨D, hD1, hD2⟩ := hD
  constructor
  · have hden : 4 * V3.dot wo (k • (wi + wo)) * V3.dot wo n ≠ 0 := by positivity
    refine ⟨D * V3.dot (k • (wi + wo)) n / (4 * V3.dot wo (k • (wi + wo)) * V3.dot wo n), ?_, by positivity⟩
    simp only [glossyPdf, hop, hb, hnorm, hD1, divF, if_neg hden, Bool.false_eq_true, if_false]
  · have hden : 4 * V3.dot wi n * V3.dot wo n ≠ 0 := by positivity
    exact ⟨_, by simp only [glossyEval, hop, hb, hnorm, hD1, divF, if_neg hden, Bool.false_eq_true, if_false]; rfl⟩

/-- What glossy sampling returns: nothing, or a unit direction on the side of wi. -/
theorem glossy_sample (Ks : V3 ℝ) (ax ay : ℝ) (hax : 0 < ax) (hay : 0 < ay) (g : Geom) (wi : V3 ℝ) (us : DirU) (comp : Nat) (dir : TransDir) (h : OnSurface g) (hi : V3.dot wi wi = 1)
    (hw : V3.dot wi g.n ≠ 0) : (glossy Ks ax ay).sampleDirection us g wi comp dir = .fail ∨
      ∃ wo C p f, (glossy Ks ax ay).sampleDirection us g wi comp dir = .ok wo C ∧ V3.dot wo wo = 1 ∧ 0 < V3.dot wi g.n * V3.dot wo g.n ∧
        glossyPdf ax ay g wi wo = some p ∧ glossyEval Ks ax ay g wi wo = some f ∧ 0 < p ∧ p • C = f := by
  obtain ⟨n, u, v, hb, hon, hwi, hside⟩ := twosided g wi h hw
  have hdot : V3.dot (safeSqrt (us.ud1 / (1 - us.ud1)) • ((ax * Real.cos (us.ud0 * 2 * Real.pi)) • u + (ay * Real.sin (us.ud0 * 2 * Real.pi)) • v) + n) n = 1 := by
    obtain ⟨_, _, nn, _, un, vn, _⟩ := hon
    simp only [V3.dot_add_left, V3.dot_smul_left, un, vn, nn]
    ring
  obtain ⟨k, hk, hnorm, hunit⟩ := normalize_some _ n (by rw [hdot]; exact one_ne_zero)
  simp only [glossy, hb, hnorm]
  by_cases hop : opposite g wi (reflection wi (k • (safeSqrt (us.ud1 / (1 - us.ud1)) • ((ax * Real.cos (us.ud0 * 2 * Real.pi)) • u + (ay * Real.sin (us.ud0 * 2 * Real.pi)) • v) + n))) = true
  · left; simp only [hop, if_true]
  · right
    rw [Bool.not_eq_true] at hop
    have hs := (opposite_iff _ _ _).mp hop
    have hou := (C33_reflection wi _ hunit).1
    rw [hi] at hou
    obtain ⟨⟨p, hp, hp0⟩, f, hf⟩ := glossy_defined Ks ax ay hax hay g wi _ h hi hou hs
    obtain ⟨C, hC, hpC⟩ := weightOf_ok _ f p hp0
    refine ⟨_, C, p, f, ?_, hou, hs, hp, hf, hp0, hpC⟩
    simp only [hop, Bool.false_eq_true, if_false, hp, hf]
    exact hC

/-- C45. Glossy (GGX) materials sample correctly: in particular the density at a sampled direction never vanishes. -/
theorem C45_glossy (Ks : V3 ℝ) (ax ay : ℝ) (hax : 0 < ax) (hay : 0 < ay) (g : Geom) (wi : V3 ℝ) (h : OnSurface g) (hi : V3.dot wi wi = 1) (hw : V3.dot wi g.n ≠ 0) :
    (∀ comp, EstimatesAt (glossy Ks ax ay) comp g wi) ∧ (∀ comp, Defined (glossy Ks ax ay) comp g wi) ∧ SelectsAt (glossy Ks ax ay) g wi := by
  refine ⟨fun comp us dir hu => ?_, fun comp wo ho => ?_, fun u _ _ => ⟨0, 1, 1, rfl, rfl, one_pos, by norm_num⟩⟩
  · rcases glossy_sample Ks ax ay hax hay g wi us comp dir h hi hw with e | ⟨wo, C, p, f, e, h1, _, h3, h4, h5, h6⟩
    · rw [e]; trivial
    · rw [e]; exact ⟨h1, p, f, h3, h4, h5, h6⟩
  · cases hop : opposite g wi wo with
    | true => exact ⟨⟨0, by simp [glossy, glossyPdf, hop], le_refl _⟩, fun dir => ⟨0, by simp [glossy, glossyEval, hop]⟩⟩
    | false =>
      obtain ⟨⟨p, hp, hp0⟩, f, hf⟩ := glossy_defined Ks ax ay hax hay g wi wo h hi ho ((opposite_iff _ _ _).mp hop)
      exact ⟨⟨p, hp, hp0.le⟩, fun dir => ⟨f, hf⟩⟩

/-- C70. Glossy reflection stays on the side of the incident direction. -/
theorem C70_glossy (Ks : V3 ℝ) (ax ay : ℝ) (hax : 0 < ax) (hay : 0 < ay) (g : Geom) (wi : V3 ℝ) (us : DirU) (comp : Nat) (dir : TransDir) (h : OnSurface g) (hi : V3.dot wi wi = 1)
    (hw : V3.dot wi g.n ≠ 0) (wo C : V3 ℝ) (e : (glossy Ks ax ay).sampleDirection us g wi comp dir = .ok wo C) : 0 < V3.dot wi g.n * V3.dot wo g.n := by
  rcases glossy_sample Ks ax ay hax hay g wi us comp dir h hi hw with e' | ⟨wo', C', p, f, e', _, h2, _⟩
  · rw [e] at e'; cases e'
  · rw [e] at e'; cases e'; exact h2

/-! ### Glass -/

theorem fresnel_range (Ni c : ℝ) (hN : 0 < Ni) (h0 : 0 ≤ c) (h1 : c ≤ 1) :
    0 ≤ (1 - Ni) / (1 + Ni) * ((1 - Ni) / (1 + Ni)) + (1 - (1 - Ni) / (1 + Ni) * ((1 - Ni) / (1 + Ni))) * (1 - c) ^ 5 ∧
    (1 - Ni) / (1 + Ni) * ((1 - Ni) / (1 + Ni)) + (1 - (1 - Ni) / (1 + Ni) * ((1 - Ni) / (1 + Ni))) * (1 - c) ^ 5 ≤ 1 := by
  have hr : (1 - Ni) / (1 + Ni) * ((1 - Ni) / (1 + Ni)) ≤ 1 := by
    rw [div_mul_div_comm, div_le_one (by positivity)]; nlinarith
  have hr0 := mul_self_nonneg ((1 - Ni) / (1 + Ni))
  have hp0 : 0 ≤ (1 - c) ^ 5 := by apply pow_nonneg; linarith
  have hp1 : (1 - c) ^ 5 ≤ 1 := pow_le_one₀ (by linarith) (by linarith)
  constructor
  · have := mul_nonneg (sub_nonneg.mpr hr) hp0; linarith
  · nlinarith [mul_le_of_le_one_right (sub_nonneg.mpr hr) hp1]

theorem glassSide_spec (Ni : ℝ) (g : Geom) (wi : V3 ℝ) (h : OnSurface g) (hw : V3.dot wi g.n ≠ 0) :
    0 < V3.dot wi (glassSide Ni g wi).1 ∧ V3.dot (glassSide Ni g wi).1 (glassSide Ni g wi).1 = 1 ∧
    ((0 < V3.dot wi g.n ∧ (glassSide Ni g wi).1 = g.n ∧ (glassSide Ni g wi).2 = 1 / Ni) ∨ (V3.dot wi g.n < 0 ∧ (glassSide Ni g wi).1 = -g.n ∧ (glassSide Ni g wi).2 = Ni)) := by
  have nn := h.2.2.1
  unfold glassSide
  split
  · next hp => exact ⟨hp, nn, .inl ⟨hp, rfl, rfl⟩⟩
  · next hp =>
    have hn : V3.dot wi g.n < 0 := lt_of_le_of_ne (not_lt.mp hp) hw
    refine ⟨by simp only [V3.dot_neg_right]; linarith, by simp only [V3.dot_neg_left, V3.dot_neg_right, neg_neg]; exact nn, .inr ⟨hn, rfl, rfl⟩⟩

theorem unit_dot_le (a b : V3 ℝ) (ha : V3.dot a a = 1) (hb : V3.dot b b = 1) : V3.dot a b ≤ 1 := by
  have := dot_self_nonneg (a - b)
  rw [V3.dot_sub_left, V3.dot_sub_right, V3.dot_sub_right, ha, hb, V3.dot_comm b a] at this
  linarith

/-- C45. The Fresnel reflectance of glass is in [0,1]. -/
theorem C45_fresnel_range (Ni : ℝ) (hN : 0 < Ni) (g : Geom) (wi : V3 ℝ) (h : OnSurface g) (hi : V3.dot wi wi = 1) (hw : V3.dot wi g.n ≠ 0) : 0 ≤ glassFr Ni g wi ∧ glassFr Ni g wi ≤ 1 := by
  obtain ⟨s1, s2, s3⟩ := glassSide_spec Ni g wi h hw
  unfold glassFr
  rcases hs : glassSide Ni g wi with ⟨n, eta⟩
  rw [hs] at s1 s2 s3
  simp only at s1 s2 s3 ⊢
  cases hr : refraction wi n eta with
  | none => exact ⟨zero_le_one, le_refl _⟩
  | some wt =>
    obtain ⟨w1, _, w3, _⟩ := C33_snell wi n eta wt hi s2 hr
    simp only [fresnel]
    rcases s3 with ⟨hp, rfl, _⟩ | ⟨hn, rfl, _⟩
    · rw [if_pos hp]
      exact fresnel_range Ni _ hN hp.le (unit_dot_le _ _ hi s2)
    · rw [if_neg (not_lt.mpr hn.le)]
      rw [V3.dot_neg_right] at w3
      exact fresnel_range Ni _ hN (by linarith) (unit_dot_le _ _ w1 h.2.2.1)

/-- C45. Glass: components are selected with the reported probabilities (reflection exactly for u < Fr, and the two sum to one), the selected component has
    positive probability, and every component that can be selected samples correctly. -/
theorem C45_glass (Ni : ℝ) (g : Geom) (wi : V3 ℝ) (h : OnSurface g) (hi : V3.dot wi wi = 1) (hw : V3.dot wi g.n ≠ 0) :
    SelectsAt (glass Ni) g wi ∧ EstimatesAt (glass Ni) 0 g wi ∧ ((∃ p, (glass Ni).pdfComponent 1 g wi = some p ∧ p ≠ 0) → EstimatesAt (glass Ni) 1 g wi) ∧
    (∃ p q, (glass Ni).pdfComponent 0 g wi = some p ∧ (glass Ni).pdfComponent 1 g wi = some q ∧ p + q = 1 ∧
      ∀ u, 0 ≤ u → u < 1 → ∃ w, (glass Ni).sampleComponent u g wi = some (if u < p then (0, w) else (1, w))) := by
  obtain ⟨s1, s2, _⟩ := glassSide_spec Ni g wi h hw
  have hsel : ∀ u, 0 ≤ u → u < 1 → ∃ w, (glass Ni).sampleComponent u g wi = some (if u < glassFr Ni g wi then (0, w) else (1, w)) ∧
      w * (if u < glassFr Ni g wi then glassFr Ni g wi else 1 - glassFr Ni g wi) = 1 ∧ 0 < (if u < glassFr Ni g wi then glassFr Ni g wi else 1 - glassFr Ni g wi) := by
    intro u h0 h1
    by_cases hu : u < glassFr Ni g wi
    · have hp : glassFr Ni g wi ≠ 0 := by linarith
      refine ⟨1 / glassFr Ni g wi, by simp [glass, hu, divF, hp], ?_, ?_⟩
      · rw [if_pos hu]; field_simp
      · rw [if_pos hu]; linarith
    · have hp : 1 - glassFr Ni g wi ≠ 0 := by linarith
      refine ⟨1 / (1 - glassFr Ni g wi), by simp [glass, hu, divF, hp], ?_, ?_⟩
      · rw [if_neg hu]; field_simp
      · rw [if_neg hu]; linarith
  refine ⟨fun u h0 h1 => ?_, fun us dir _ => ?_, fun hne us dir _ => ?_, glassFr Ni g wi, 1 - glassFr Ni g wi, by simp [glass], by simp [glass], by ring, fun u h0 h1 => ?_⟩
  · obtain ⟨w, e1, e2, e3⟩ := hsel u h0 h1
    by_cases hu : u < glassFr Ni g wi
    · rw [if_pos hu] at e1 e2 e3; exact ⟨0, w, _, e1, by simp [glass], e3, e2⟩
    · rw [if_neg hu] at e1 e2 e3; exact ⟨1, w, _, e1, by simp [glass], e3, e2⟩
  · obtain ⟨C, hC, hp⟩ := weightOf_ok (reflection wi g.n) (glassEval Ni g wi 0 dir false) 1 one_pos
    have : (glass Ni).sampleDirection us g wi 0 dir = .ok (reflection wi g.n) C := by simp only [glass, if_true]; exact hC
    rw [this]
    exact ⟨by rw [(C33_reflection wi g.n h.2.2.1).1, hi], 1, _, by simp [glass], rfl, one_pos, hp⟩
  · obtain ⟨C, hC, hp⟩ := weightOf_ok (glassWt Ni g wi) (glassEval Ni g wi 1 dir false) 1 one_pos
    have : (glass Ni).sampleDirection us g wi 1 dir = .ok (glassWt Ni g wi) C := by simp only [glass, one_ne_zero, if_false]; exact hC
    rw [this]
    refine ⟨?_, 1, _, by simp [glass], rfl, one_pos, hp⟩
    unfold glassWt
    cases hr : refraction wi (glassSide Ni g wi).1 (glassSide Ni g wi).2 with
    | none =>
      obtain ⟨p, hp1, hp2⟩ := hne
      simp only [glass, one_ne_zero, if_false, Option.some.injEq] at hp1
      exact absurd (by rw [← hp1]; simp [glassFr, hr]) hp2
    | some wt => exact (C33_snell wi _ _ wt hi s2 hr).1
  · obtain ⟨w, e1, _⟩ := hsel u h0 h1; exact ⟨w, e1⟩

/-- C70. Glass: reflection keeps the side, refraction (when it can be selected) goes to the other side. -/
theorem C70_glass (Ni : ℝ) (g : Geom) (wi : V3 ℝ) (us : DirU) (dir : TransDir) (h : OnSurface g) (hi : V3.dot wi wi = 1) (hw : V3.dot wi g.n ≠ 0) :
    (∃ wo C, (glass Ni).sampleDirection us g wi 0 dir = .ok wo C ∧ 0 < V3.dot wi g.n * V3.dot wo g.n) ∧
    ((∃ p, (glass Ni).pdfComponent 1 g wi = some p ∧ p ≠ 0) → ∃ wo C, (glass Ni).sampleDirection us g wi 1 dir = .ok wo C ∧ V3.dot wi g.n * V3.dot wo g.n < 0) := by
  obtain ⟨s1, s2, s3⟩ := glassSide_spec Ni g wi h hw
  constructor
  · obtain ⟨C, hC, _⟩ := weightOf_ok (reflection wi g.n) (glassEval Ni g wi 0 dir false) 1 one_pos
    refine ⟨_, C, by simp only [glass, if_true]; exact hC, ?_⟩
    rw [(C33_reflection wi g.n h.2.2.1).2.2.1]
    exact mul_self_pos.mpr hw
  · rintro ⟨p, hp1, hp2⟩
    obtain ⟨C, hC, _⟩ := weightOf_ok (glassWt Ni g wi) (glassEval Ni g wi 1 dir false) 1 one_pos
    refine ⟨_, C, by simp only [glass, one_ne_zero, if_false]; exact hC, ?_⟩
    unfold glassWt
    cases hr : refraction wi (glassSide Ni g wi).1 (glassSide Ni g wi).2 with
    | none =>
      simp only [glass, one_ne_zero, if_false, Option.some.injEq] at hp1
      exact absurd (by rw [← hp1]; simp [glassFr, hr]) hp2
    | some wt =>
      obtain ⟨_, _, w3, _⟩ := C33_snell wi _ _ wt hi s2 hr
      rcases s3 with ⟨hp, e, _⟩ | ⟨hn, e, _⟩
      · rw [e] at w3; exact mul_neg_of_pos_of_neg hp w3
      · rw [e, V3.dot_neg_right] at w3; exact mul_neg_of_neg_of_pos hn (by linarith)

/-! ### Mixtures -/

theorem distOf_eq (ws : List ℝ) : distOf ws = Dist.ofWeights ws := rfl

/-- Selection from non-negative weights with positive sum. -/
theorem select_ok (ws : List ℝ) (hnn : ∀ w ∈ ws, 0 ≤ w) (hs : 0 < ws.sum) : ∃ c, distOf ws = some c ∧ (∀ i : Int, 0 ≤ Dist.pmf c i) ∧
    ∀ u, 0 ≤ u → u < 1 → ∃ i < ws.length, Dist.sample c u = some i ∧ 0 < Dist.pmf c i ∧ selectComp (distOf ws) u = some (i, 1 / Dist.pmf c i) := by
  obtain ⟨c, h1, _, h3⟩ := Dist.C28_sample ws hnn hs
  obtain ⟨c', h1', h2', _⟩ := Dist.C28_pmf_sum ws hnn hs
  rw [h1] at h1'; cases h1'
  rw [← distOf_eq] at h1
  refine ⟨c, h1, h2', fun u h0 hu => ?_⟩
  obtain ⟨⟨i, hi, e1, e2⟩, _⟩ := h3 u h0 hu
  exact ⟨i, hi, e1, e2, by simp [selectComp, h1, e1, divF, e2.ne']⟩

/-- C45. The weighted mixture with Russian roulette selects components with the reported probabilities and samples every component correctly if its materials do. -/
theorem C45_mixture_rr (es : List Entry) (g : Geom) (wi : V3 ℝ) (hnn : ∀ e ∈ es, 0 ≤ e.2) (hs : 0 < (es.map (·.2)).sum) :
    SelectsAt (mixtureRR es) g wi ∧ ∀ comp e, es[comp]? = some e → EstimatesAt e.1 0 g wi → EstimatesAt (mixtureRR es) comp g wi := by
  constructor
  · obtain ⟨c, h1, _, h3⟩ := select_ok (es.map (·.2)) (by simpa using fun b a hab => hnn (a, b) hab) hs
    intro u h0 hu
    obtain ⟨i, hi, e1, e2, e3⟩ := h3 u h0 hu
    exact ⟨i, _, _, e3, by simp [mixtureRR, h1], e2, by field_simp⟩
  · intro comp e he hest us dir hu
    have := hest us dir hu
    simp only [mixtureRR, he]
    cases hsd : e.1.sampleDirection us g wi 0 dir with
    | fail => trivial
    | undef => rw [hsd] at this; exact this
    | ok wo C =>
      rw [hsd] at this
      obtain ⟨h1, p, f, h2, h3, h4, h5⟩ := this
      refine ⟨h1, p, e.2 • f, by simp [h2], by simp [h3], h4, ?_⟩
      rw [← h5, smul_comm]

theorem mapM_option {α β : Type} (f : α → Option β) (l : List α) (h : ∀ a ∈ l, ∃ b, f a = some b) : ∃ bs, l.mapM f = some bs ∧ List.Forall₂ (fun a b => f a = some b) l bs := by
  induction l with
  | nil => exact ⟨[], by simp [pure], .nil⟩
  | cons a l ih =>
    obtain ⟨b, hb⟩ := h a (by simp)
    obtain ⟨bs, h1, h2⟩ := ih (fun x hx => h x (by simp [hx]))
    exact ⟨b :: bs, by simp [List.mapM_cons, hb, h1], .cons hb h2⟩

theorem forall2_get {α β : Type} {R : α → β → Prop} {l : List α} {m : List β} (h : List.Forall₂ R l m) (i : Nat) (a : α) (ha : l[i]? = some a) : ∃ b, m[i]? = some b ∧ R a b := by
  induction h generalizing i with
  | nil => simp at ha
  | cons hr _ ih =>
    cases i with
    | zero => simp at ha; subst ha; exact ⟨_, by simp, hr⟩
    | succ i => simpa using ih i (by simpa using ha)

/-- C45. The marginalized mixture selects groups with the reported probabilities, and samples every group correctly (weights marginalized over the group) if its materials do:
    groups with positive total weight. -/
theorem C45_mixture_marginalized (es : List Entry) (g : Geom) (wi : V3 ℝ) (hnn : ∀ e ∈ es, 0 ≤ e.2) (hs : 0 < (es.map (·.2)).sum) :
    SelectsAt (mixtureMarg es) g wi ∧ ∀ comp grp, (groups es)[comp]? = some grp → 0 < (grp.map (·.2)).sum →
      (∀ e ∈ grp, EstimatesAt e.1 0 g wi ∧ Defined e.1 0 g wi) → EstimatesAt (mixtureMarg es) comp g wi := by
  have hfold : ∀ (es : List Entry) (gs : List Entry × List (List Entry)), (∀ e ∈ es, 0 ≤ e.2) → (∀ e ∈ gs.1, 0 ≤ e.2) → (∀ l ∈ gs.2, ∀ e ∈ l, 0 ≤ e.2) →
      (∀ e ∈ (es.foldl addEntry gs).1, 0 ≤ e.2) ∧ (∀ l ∈ (es.foldl addEntry gs).2, ∀ e ∈ l, 0 ≤ e.2) ∧
      ((es.foldl addEntry gs).1.map (·.2)).sum + ((es.foldl addEntry gs).2.map (fun gr => (gr.map (·.2)).sum)).sum =
        (gs.1.map (·.2)).sum + (gs.2.map (fun gr => (gr.map (·.2)).sum)).sum + (es.map (·.2)).sum := by
    intro es
    induction es with
    | nil => intro gs _ h1 h2; exact ⟨h1, h2, by simp⟩
    | cons e es ih =>
      intro gs h h1 h2
      rw [List.foldl_cons]
      have he := h e (by simp)
      have hes : ∀ e ∈ es, 0 ≤ e.2 := fun x hx => h x (by simp [hx])
      unfold addEntry at ih ⊢
      by_cases hsp : e.1.isSpecular 0 = some true
      · obtain ⟨a, b, c⟩ := ih (gs.1, gs.2 ++ [[e]]) hes h1 (by
          intro l hl x hx
          rcases List.mem_append.mp hl with hl | hl
          · exact h2 l hl x hx
          · simp at hl; subst hl; simp at hx; subst hx; exact he)
        rw [if_pos hsp]
        exact ⟨a, b, by rw [c]; simp; ring⟩
      · obtain ⟨a, b, c⟩ := ih (gs.1 ++ [e], gs.2) hes (by
          intro x hx
          rcases List.mem_append.mp hx with hx | hx
          · exact h1 x hx
          · simp at hx; subst hx; exact he) h2
        rw [if_neg hsp]
        exact ⟨a, b, by rw [c]; simp; ring⟩
  obtain ⟨f1, f2, f3⟩ := hfold es ([], []) hnn (by simp) (by simp)
  have gnn : ∀ grp ∈ groups es, ∀ e ∈ grp, 0 ≤ e.2 := by
    intro grp hg
    rcases List.mem_cons.mp hg with rfl | hg
    · exact f1
    · exact f2 grp hg
  constructor
  · have hsum : 0 < ((groups es).map (fun gr => (gr.map (·.2)).sum)).sum := by
      have : ((groups es).map (fun gr => (gr.map (·.2)).sum)).sum = (es.map (·.2)).sum := by
        simp only [groups, List.map_cons, List.sum_cons]
        rw [f3]; simp
      rw [this]; exact hs
    have hnn' : ∀ w ∈ (groups es).map (fun gr => (gr.map (·.2)).sum), 0 ≤ w := by
      intro w hw
      obtain ⟨gr, hg, rfl⟩ := List.mem_map.mp hw
      apply List.sum_nonneg
      intro x hx
      obtain ⟨e, he, rfl⟩ := List.mem_map.mp hx
      exact gnn gr hg e he
    obtain ⟨c, h1, _, h3⟩ := select_ok _ hnn' hsum
    intro u h0 hu
    obtain ⟨i, hi, e1, e2, e3⟩ := h3 u h0 hu
    exact ⟨i, _, _, e3, by simp [mixtureMarg, h1], e2, by field_simp⟩
  · intro comp grp hg hpos hgood us dir hu
    have hgnn := gnn grp (List.mem_of_getElem? hg)
    obtain ⟨d, hd, hpm, hsel⟩ := select_ok (grp.map (·.2)) (by simpa using fun b a hab => hgnn (a, b) hab) hpos
    obtain ⟨i, hi, e1, e2, _⟩ := hsel us.udc0 hu.2.2.1 hu.2.2.2
    rw [List.length_map] at hi
    have hgi : grp[i]? = some grp[i] := List.getElem?_eq_getElem hi
    have hmem : grp[i] ∈ grp := List.getElem_mem hi
    have hest := (hgood _ hmem).1 us dir hu
    simp only [mixtureMarg, hg, hd, Option.bind_some, e1, hgi]
    cases hsd : grp[i].1.sampleDirection us g wi 0 dir with
    | fail => trivial
    | undef => rw [hsd] at hest; exact hest
    | ok wo C =>
      rw [hsd] at hest
      obtain ⟨hun, p, f, hp, hf, hp0, _⟩ := hest
      have hevalall : ∀ e ∈ grp, ∃ b, (e.1.eval g wi wo 0 dir false).map (fun f => e.2 • f) = some b := by
        intro e he
        obtain ⟨f, hf⟩ := ((hgood e he).2 wo hun).2 dir
        exact ⟨e.2 • f, by simp [hf]⟩
      obtain ⟨fs, hfs, _⟩ := mapM_option (fun (e : Entry) => (e.1.eval g wi wo 0 dir false).map (fun f => e.2 • f)) grp hevalall
      have hpdfall : ∀ e ∈ grp.zipIdx, ∃ b, (e.1.1.pdfDirection g wi wo 0 false).map (fun p => Dist.pmf d e.2 * p) = some b := by
        intro e he
        obtain ⟨q, hq, _⟩ := ((hgood e.1 (List.fst_mem_of_mem_zipIdx he)).2 wo hun).1
        exact ⟨Dist.pmf d e.2 * q, by simp [hq]⟩
      obtain ⟨ps, hps, hps2⟩ := mapM_option (fun (e : Entry × Nat) => (e.1.1.pdfDirection g wi wo 0 false).map (fun p => Dist.pmf d e.2 * p)) grp.zipIdx hpdfall
      have hge : groupEval grp g wi wo dir false = some fs.sum := by simp [groupEval, hfs]
      have hgp : groupPdf grp g wi wo false = some ps.sum := by simp [groupPdf, hd, hps]
      have hpos2 : 0 < ps.sum := by
        have hall : ∀ x ∈ ps, 0 ≤ x := by
          intro x hx
          obtain ⟨k, hk⟩ := List.mem_iff_getElem?.mp hx
          obtain ⟨e, he, hr⟩ := forall2_get hps2.flip k x hk
          have hme := List.mem_of_getElem? he
          obtain ⟨q, hq, hq0⟩ := ((hgood e.1 (List.fst_mem_of_mem_zipIdx hme)).2 wo hun).1
          simp [hq] at hr
          rw [← hr]
          exact mul_nonneg (hpm _) hq0
        have hz : grp.zipIdx[i]? = some (grp[i], i) := by simp [hi]
        obtain ⟨b, hb, hr⟩ := forall2_get hps2 i _ hz
        simp only [hp, Option.map_some, Option.some.injEq] at hr
        have hbpos : 0 < b := by rw [← hr]; exact mul_pos e2 hp0
        exact lt_of_lt_of_le hbpos (List.single_le_sum hall b (List.mem_of_getElem? hb))
      obtain ⟨C', hC', hpC⟩ := weightOf_ok wo fs.sum ps.sum hpos2
      simp only [hge, hgp]
      rw [hC']
      exact ⟨hun, _, _, by simp [hgp], by simp [hge], hpos2, hpC⟩

/-- C45. The marginalized mixture keeps every entry in exactly one group: group 0 has the non-specular ones in order and each specular entry has a group of its own, in order. -/
theorem C45_groups (es : List Entry) : groups es = es.filter (fun e => !decide (e.1.isSpecular 0 = some true)) :: (es.filter (fun e => decide (e.1.isSpecular 0 = some true))).map (fun e => [e]) := by
  have : ∀ (es : List Entry) (gs : List Entry × List (List Entry)), es.foldl addEntry gs =
      (gs.1 ++ es.filter (fun e => !decide (e.1.isSpecular 0 = some true)), gs.2 ++ (es.filter (fun e => decide (e.1.isSpecular 0 = some true))).map (fun e => [e])) := by
    intro es
    induction es with
    | nil => intro gs; simp
    | cons e es ih =>
      intro gs
      rw [List.foldl_cons, ih]
      unfold addEntry
      by_cases h : e.1.isSpecular 0 = some true <;> simp [h]
  simp [groups, this]

theorem diffuseProb_spec (d gl : Mat) (g : Geom) (hKd : 0 ≤ compMax (d.reflectance g)) (hKs : 0 ≤ compMax (gl.reflectance g)) : ∃ w, diffuseProb d gl g = some w ∧ 0 ≤ w ∧ w ≤ 1 := by
  unfold diffuseProb
  simp only
  by_cases hne : compMax (d.reflectance g) = 0 ∧ compMax (gl.reflectance g) = 0
  · exact ⟨1, by rw [if_pos hne], zero_le_one, le_refl _⟩
  · rw [if_neg hne]
    have hpos : 0 < compMax (d.reflectance g) + compMax (gl.reflectance g) := by
      rcases lt_or_eq_of_le hKd with a | a
      · linarith
      · rcases lt_or_eq_of_le hKs with b | b
        · linarith
        · exact absurd ⟨a.symm, b.symm⟩ hne
    exact ⟨compMax (d.reflectance g) / (compMax (d.reflectance g) + compMax (gl.reflectance g)), by simp only [divF, if_neg hpos.ne'], by positivity, by rw [div_le_one hpos]; linarith⟩

/-- C45. The diffuse/glossy component of the OBJ mixture samples correctly. Missing: the alpha mask component (C45_negation_obj_mask). -/
theorem C45_obj_mixture_partial (Kd : Geom → V3 ℝ) (Ks : V3 ℝ) (ax ay : ℝ) (hax : 0 < ax) (hay : 0 < ay) (alpha : Geom → ℝ) (g : Geom) (wi : V3 ℝ) (h : OnSurface g) (hi : V3.dot wi wi = 1)
    (hw : V3.dot wi g.n ≠ 0) (hKd : 0 ≤ compMax (Kd g)) (hKs : 0 ≤ compMax Ks) :
    EstimatesAt (objMixture (diffuse Kd) (glossy Ks ax ay) alpha) 0 g wi ∧ SelectsAt (objMixture (diffuse Kd) (glossy Ks ax ay) alpha) g wi := by
  obtain ⟨d1, d2, _⟩ := C45_diffuse Kd g wi h hw
  obtain ⟨g1, g2, _⟩ := C45_glossy Ks ax ay hax hay g wi h hi hw
  obtain ⟨w, hw1, hw0, hwl⟩ := diffuseProb_spec (diffuse Kd) (glossy Ks ax ay) g hKd hKs
  constructor
  · intro us dir hu
    have hmain : ∀ wo, V3.dot wo wo = 1 → ∀ pd pg, (diffuse Kd).pdfDirection g wi wo 0 false = some pd → (glossy Ks ax ay).pdfDirection g wi wo 0 false = some pg → 0 < w * pd + (1 - w) * pg →
        match weightOf wo (objEval (diffuse Kd) (glossy Ks ax ay) alpha g wi wo 0 dir false) (objPdf (diffuse Kd) (glossy Ks ax ay) g wi wo 0 false) with
        | .fail => True
        | .undef => False
        | .ok wo C => V3.dot wo wo = 1 ∧ ∃ p f, (objMixture (diffuse Kd) (glossy Ks ax ay) alpha).pdfDirection g wi wo 0 false = some p ∧
            (objMixture (diffuse Kd) (glossy Ks ax ay) alpha).eval g wi wo 0 dir false = some f ∧ 0 < p ∧ p • C = f := by
      intro wo hun pd pg hpd hpg hpos
      obtain ⟨fd, hfd⟩ := (d2 0 wo hun).2 dir
      obtain ⟨fg, hfg⟩ := (g2 0 wo hun).2 dir
      have he : objEval (diffuse Kd) (glossy Ks ax ay) alpha g wi wo 0 dir false = some (alpha g • (fd + fg)) := by simp [objEval, hfd, hfg]
      have hp : objPdf (diffuse Kd) (glossy Ks ax ay) g wi wo 0 false = some (w * pd + (1 - w) * pg) := by simp [objPdf, hw1, hpd, hpg]
      obtain ⟨C, hC, hpC⟩ := weightOf_ok wo (alpha g • (fd + fg)) _ hpos
      rw [he, hp, hC]
      exact ⟨hun, _, _, hp, he, hpos, hpC⟩
    have hsd : (objMixture (diffuse Kd) (glossy Ks ax ay) alpha).sampleDirection us g wi 0 dir =
        match (if us.udc0 < w then diffuse Kd else glossy Ks ax ay).sampleDirection us g wi 0 dir with
        | .ok wo _ => weightOf wo (objEval (diffuse Kd) (glossy Ks ax ay) alpha g wi wo 0 dir false) (objPdf (diffuse Kd) (glossy Ks ax ay) g wi wo 0 false)
        | r => r := by
      simp only [objMixture, if_true, hw1]
      rfl
    rw [hsd]
    by_cases hc : us.udc0 < w
    · rw [if_pos hc]
      have := d1 0 us dir hu
      cases hr : (diffuse Kd).sampleDirection us g wi 0 dir with
      | fail => trivial
      | undef => rw [hr] at this; exact this
      | ok wo C =>
        rw [hr] at this
        obtain ⟨hun, p, f, hp, _, hp0, _⟩ := this
        obtain ⟨⟨pg, hpg, hpg0⟩, _⟩ := g2 0 wo hun
        refine hmain wo hun p pg hp hpg ?_
        have : 0 < w := lt_of_le_of_lt hu.2.2.1 hc
        have := mul_pos this hp0
        have := mul_nonneg (sub_nonneg.mpr hwl) hpg0
        linarith
    · rw [if_neg hc]
      have := g1 0 us dir hu
      cases hr : (glossy Ks ax ay).sampleDirection us g wi 0 dir with
      | fail => trivial
      | undef => rw [hr] at this; exact this
      | ok wo C =>
        rw [hr] at this
        obtain ⟨hun, p, f, hp, _, hp0, _⟩ := this
        obtain ⟨⟨pd, hpd, hpd0⟩, _⟩ := d2 0 wo hun
        refine hmain wo hun pd p hpd hp ?_
        have : 0 < 1 - w := by linarith [hu.2.2.2]
        have := mul_pos this hp0
        have := mul_nonneg hw0 hpd0
        linarith
  · intro u h0 h1
    by_cases hu : u < alpha g
    · have hne : alpha g ≠ 0 := by linarith
      exact ⟨0, 1 / alpha g, alpha g, by simp [objMixture, hu, divF, hne], by simp [objMixture], by linarith, by field_simp⟩
    · have hne : 1 - alpha g ≠ 0 := by linarith
      exact ⟨1, 1 / (1 - alpha g), 1 - alpha g, by simp [objMixture, hu, divF, hne], by simp [objMixture], by linarith, by field_simp⟩

/-- C45, negation. The pass-through component of the OBJ mixture returns weight 1, but density 1 and value 1 - alpha: weight · density ≠ value whenever the mask is partly opaque,
    for all underlying materials. (The code computes C = f/p and then returns Vec3(1).) -/
theorem C45_negation_obj_mask (d gl : Mat) (alpha : Geom → ℝ) (g : Geom) (wi : V3 ℝ) (us : DirU) (dir : TransDir) (hu : us.Valid) (ha : alpha g ≠ 0) : ¬ EstimatesAt (objMixture d gl alpha) 1 g wi := by
  intro h
  have := h us dir hu
  simp only [objMixture, one_ne_zero, if_false] at this
  obtain ⟨_, p, f, hp, hf, _, hpf⟩ := this
  simp [objPdf] at hp
  simp [objEval] at hf
  rw [← hp, ← hf, one_smul] at hpf
  have := congrArg V3.x hpf
  simp at this
  exact ha (by linarith)

/-- C45. A proxy behaves like the material it refers to. -/
theorem C45_proxy (m : Mat) (comp : Nat) (g : Geom) (wi : V3 ℝ) : (EstimatesAt (proxy m) comp g wi ↔ EstimatesAt m comp g wi) ∧ (SelectsAt (proxy m) g wi ↔ SelectsAt m g wi) := ⟨Iff.rfl, Iff.rfl⟩

/-- Remark: mixtures address only component 0 of their entries, so the refraction of glass inside of a mixture is neither sampled nor evaluated: the mixture's components
    add up to w·Fr instead of w·(Fr + (1-Fr)). -/
theorem C45_remark_nested_glass (Ni w : ℝ) (g : Geom) (wi wo : V3 ℝ) : (mixtureRR [(glass Ni, w)]).eval g wi wo 0 .LE false = some (w • V3.all (glassFr Ni g wi)) ∧
    (mixtureRR [(glass Ni, w)]).eval g wi wo 1 .LE false = none := by
  constructor <;> simp [mixtureRR, glass, glassEval]

/-- Non-vacuity: a frame, an incident direction that is not grazing, and random numbers. -/
def exGeom : Geom := ⟨false, false, 0, ⟨0, 0, 1⟩, ⟨0, 0, 1⟩, 0, ⟨1, 0, 0⟩, ⟨0, 1, 0⟩⟩
example : OnSurface exGeom ∧ V3.dot (⟨3/5, 0, 4/5⟩ : V3 ℝ) ⟨3/5, 0, 4/5⟩ = 1 ∧ V3.dot (⟨3/5, 0, 4/5⟩ : V3 ℝ) exGeom.n ≠ 0 ∧ (⟨1/2, 1/4, 1/3⟩ : DirU).Valid := by
  refine ⟨?_, ?_, ?_, ?_⟩
  · unfold OnSurface Orthonormal exGeom; refine ⟨?_, ?_, ?_, ?_, ?_, ?_, ?_⟩ <;> norm_num [V3.dot, V3.cross]
  · norm_num [V3.dot]
  · norm_num [V3.dot, exGeom]
  · norm_num [DirU.Valid]

/-- A mixture of three materials, one specular. -/
noncomputable example : ∃ grp, (groups [(diffuse fun _ => V3.all 1, 1), (mirror, 2), (glossy (V3.all 1) 1 1, 3)])[0]? = some grp ∧ grp.length = 2 := by
  rw [C45_groups]; simp [diffuse, mirror, glossy]

end LM.Material
