import Verif.Props.C45_Material
namespace LM.Material
open LM LM.MathF LM.Surface

/-- C76. Diffuse reflection is reciprocal. -/
theorem C76_diffuse (Kd : Geom → V3 ℝ) (g : Geom) (wi wo : V3 ℝ) (c : Nat) (d1 d2 : TransDir) (e : Bool) : (diffuse Kd).eval g wi wo c d1 e = (diffuse Kd).eval g wo wi c d2 e := by
  have hop : opposite g wi wo = opposite g wo wi := by simp only [opposite, mul_comm]
  simp only [diffuse, hop]

/-- The two-sided basis is that of the other direction if both are on the same side. -/
theorem basis_same (g : Geom) (wi wo : V3 ℝ) (h : 0 < V3.dot wi g.n * V3.dot wo g.n) : basisTwosided g wi = basisTwosided g wo := by
  unfold basisTwosided
  by_cases h1 : V3.dot wi g.n > 0
  · have h2 : V3.dot wo g.n > 0 := by by_contra hc; nlinarith
    rw [if_pos h1, if_pos h2]
  · have h2 : ¬ V3.dot wo g.n > 0 := by intro hc; nlinarith
    rw [if_neg h1, if_neg h2]

/-- C76. Glossy reflection is reciprocal, for unit directions. -/
theorem C76_glossy (Ks : V3 ℝ) (ax ay : ℝ) (g : Geom) (wi wo : V3 ℝ) (hi : V3.dot wi wi = 1) (ho : V3.dot wo wo = 1) (c : Nat) (d1 d2 : TransDir) (e : Bool) :
    (glossy Ks ax ay).eval g wi wo c d1 e = (glossy Ks ax ay).eval g wo wi c d2 e := by
  simp only [glossy, glossyEval]
  have hop : opposite g wi wo = opposite g wo wi := by simp only [opposite, mul_comm]
  rw [hop]
  cases h : opposite g wo wi with
  | true => rfl
  | false =>
    have hs := (opposite_iff _ _ _).mp h
    rw [basis_same g wo wi hs, add_comm wi wo]
    simp only [Bool.false_eq_true, if_false]
    rcases hb : basisTwosided g wi with ⟨n, u, v⟩
    simp only
    cases hn : normalize (wo + wi) with
    | none => rfl
    | some wh =>
      have hd : V3.dot wo wh = V3.dot wi wh := by
        unfold normalize at hn
        split at hn
        · cases hn
        · cases hn
          simp only [V3.dot_smul_right, V3.dot_add_right, hi, ho, V3.dot_comm wi wo]
          ring
      have hG : shadowG ax ay wi wo u v n = shadowG ax ay wo wi u v n := mul_comm _ _
      have hden : 4 * V3.dot wi n * V3.dot wo n = 4 * V3.dot wo n * V3.dot wi n := by ring
      simp only [hd, hG, hden]

/-- Refraction with the material's own side convention is reversible. -/
theorem glass_reverse (Ni : ℝ) (hN : 0 < Ni) (g : Geom) (wi wt : V3 ℝ) (h : OnSurface g) (hi : V3.dot wi wi = 1) (hw : V3.dot wi g.n ≠ 0)
    (hr : refraction wi (glassSide Ni g wi).1 (glassSide Ni g wi).2 = some wt) :
    refraction wt (glassSide Ni g wt).1 (glassSide Ni g wt).2 = some wi ∧ V3.dot wi g.n * V3.dot wt g.n < 0 := by
  obtain ⟨s1, s2, s3⟩ := glassSide_spec Ni g wi h hw
  have he : (glassSide Ni g wi).2 ≠ 0 := by
    rcases s3 with ⟨_, _, e⟩ | ⟨_, _, e⟩
    · rw [e]; positivity
    · rw [e]; exact hN.ne'
  obtain ⟨b1, b2⟩ := C33_refract_back_partial wi _ _ wt hi s2 he s1 hr
  have wtn : V3.dot wt (glassSide Ni g wi).1 < 0 := by by_contra hc; push Not at hc; nlinarith
  rcases s3 with ⟨hp, e1, e2⟩ | ⟨hn, e1, e2⟩
  · rw [e1] at wtn b2
    have : glassSide Ni g wt = (-g.n, Ni) := by unfold glassSide; rw [if_neg (not_lt.mpr wtn.le)]
    rw [this]
    rw [e2, one_div_one_div] at b2
    exact ⟨b2, mul_neg_of_pos_of_neg hp wtn⟩
  · rw [e1] at wtn b2
    rw [V3.dot_neg_right] at wtn
    have hp : V3.dot wt g.n > 0 := by linarith
    have : glassSide Ni g wt = (g.n, 1 / Ni) := by unfold glassSide; rw [if_pos hp]
    rw [this]
    rw [e2, neg_neg] at b2
    exact ⟨b2, mul_neg_of_neg_of_pos hn hp⟩

/-- C76. Glass: reflectance is the same for a direction, its mirror image, and for the refracted direction; and the transmission seen by the camera side for (wi, wo) is eta² times
    the transmission on the light side for (wo, wi), eta being the relative index on the side of wi. -/
theorem C76_glass (Ni : ℝ) (hN : 0 < Ni) (g : Geom) (wi : V3 ℝ) (h : OnSurface g) (hi : V3.dot wi wi = 1) (hw : V3.dot wi g.n ≠ 0) :
    (∀ d1 d2, (glass Ni).eval g wi (reflection wi g.n) 0 d1 false = (glass Ni).eval g (reflection wi g.n) wi 0 d2 false) ∧
    (∀ wt, refraction wi (glassSide Ni g wi).1 (glassSide Ni g wi).2 = some wt →
      glassFr Ni g wi = glassFr Ni g wt ∧
      ∃ a b, (glass Ni).eval g wi wt 1 .EL false = some a ∧ (glass Ni).eval g wt wi 1 .LE false = some b ∧ a = ((glassSide Ni g wi).2 ^ 2) • b) := by
  obtain ⟨s1, s2, s3⟩ := glassSide_spec Ni g wi h hw
  have nn := h.2.2.1
  constructor
  · intro d1 d2
    obtain ⟨r1, _, r3, _⟩ := C33_reflection wi g.n nn
    have hside : glassSide Ni g (reflection wi g.n) = glassSide Ni g wi := by simp only [glassSide, r3]
    have hfr : glassFr Ni g wi = glassFr Ni g (reflection wi g.n) := by
      unfold glassFr
      rw [hside]
      rcases hs : glassSide Ni g wi with ⟨n, eta⟩
      rw [hs] at s1 s2 s3
      simp only at s1 s2 s3 ⊢
      have hdn : V3.dot (reflection wi g.n) n = V3.dot wi n := by
        rcases s3 with ⟨_, rfl, _⟩ | ⟨_, rfl, _⟩
        · exact r3
        · rw [V3.dot_neg_right, V3.dot_neg_right, r3]
      cases ha : refraction wi n eta with
      | none =>
        have hb : refraction (reflection wi g.n) n eta = none := by rw [C33_total_iff] at ha ⊢; rw [hdn]; exact ha
        rw [hb]
      | some wt =>
        cases hb : refraction (reflection wi g.n) n eta with
        | none =>
          exfalso
          have : refraction wi n eta = none := by rw [C33_total_iff] at hb ⊢; rw [hdn] at hb; exact hb
          rw [ha] at this; cases this
        | some wt' =>
          simp only [fresnel, r3]
          split
          · rfl
          · have hwt : V3.dot wt g.n = V3.dot wt' g.n := by
              obtain ⟨_, rfl⟩ := refraction_some _ _ _ _ ha
              obtain ⟨_, rfl⟩ := refraction_some _ _ _ _ hb
              simp only [V3.dot_sub_left, V3.dot_smul_left, hdn, r3]
            rw [hwt]
    simp only [glass, glassEval, Bool.false_eq_true, if_false, if_true, hfr]
  · intro wt hr
    obtain ⟨hback, hlt⟩ := glass_reverse Ni hN g wi wt h hi hw hr
    have hfr : glassFr Ni g wi = glassFr Ni g wt := by
      unfold glassFr
      rcases hs : glassSide Ni g wi with ⟨n, eta⟩
      rcases hs' : glassSide Ni g wt with ⟨n', eta'⟩
      rw [hs] at hr; rw [hs'] at hback
      simp only at hr hback
      simp only [hr, hback, fresnel]
      by_cases hp : V3.dot wi g.n > 0
      · have : ¬ V3.dot wt g.n > 0 := by intro hc; nlinarith
        rw [if_pos hp, if_neg this]
      · have hp' : V3.dot wi g.n < 0 := lt_of_le_of_ne (not_lt.mp hp) hw
        have : V3.dot wt g.n > 0 := by by_contra hc; nlinarith
        rw [if_neg hp, if_pos this]
    refine ⟨hfr, _, _, rfl, rfl, ?_⟩
    simp only [glassEval, Bool.false_eq_true, if_false, one_ne_zero, refrCorrection, if_true, reduceCtorEq, hfr]
    ext <;> simp <;> ring

/-- C76. Glass conserves energy in the light direction: reflected and transmitted fractions sum to one. -/
theorem C76_glass_energy (Ni : ℝ) (g : Geom) (wi wo : V3 ℝ) : ∃ a b, (glass Ni).eval g wi wo 0 .LE false = some a ∧ (glass Ni).eval g wi wo 1 .LE false = some b ∧ a + b = V3.all 1 := by
  refine ⟨_, _, rfl, rfl, ?_⟩
  simp only [glassEval, Bool.false_eq_true, if_false, if_true, one_ne_zero, refrCorrection, reduceCtorEq]
  ext <;> simp

example : ∃ wt, refraction ⟨0, 0, 1⟩ (glassSide (3/2) exGeom ⟨0, 0, 1⟩).1 (glassSide (3/2) exGeom ⟨0, 0, 1⟩).2 = some wt := by
  have h : glassSide (3/2) exGeom ⟨0, 0, 1⟩ = (⟨0, 0, 1⟩, 1 / (3/2)) := by simp [glassSide, exGeom, V3.dot]
  rw [h]
  exact ⟨_, by norm_num [refraction, V3.dot]; rfl⟩

end LM.Material
