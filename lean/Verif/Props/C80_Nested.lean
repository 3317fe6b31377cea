import Verif.Props.C80_Mixture
/-
  C80: the mixture material of OBJ models, and mixtures nested in mixtures.
-/
namespace LM.Solid
open MeasureTheory LM Set LM.MathF LM.Surface LM.Material
open scoped ENNReal Real

/-- Replacing the weight of a sample does not change its direction. -/
theorem reweigh {r s : DirRes} {F : V3 ℝ → Option (V3 ℝ)} {P : V3 ℝ → Option ℝ} (h0 : r = .fail → s = .fail) (h1 : r = .undef → s = .undef) (h2 : ∀ wo C, r = .ok wo C → s = weightOf wo (F wo) (P wo)) (hs : s ≠ .undef)
    (A : Set (V3 ℝ)) : (∃ wo C, s = .ok wo C ∧ wo ∈ A) ↔ ∃ wo C, r = .ok wo C ∧ wo ∈ A := by
  cases r with
  | fail => rw [h0 rfl]
  | undef => exact absurd (h1 rfl) hs
  | ok wo C =>
    rw [h2 wo C rfl] at hs ⊢
    have hw : ∃ C', weightOf wo (F wo) (P wo) = .ok wo C' := by
      unfold weightOf at hs ⊢
      cases hF : F wo with
      | none => simp [hF] at hs
      | some f =>
        cases hP : P wo with
        | none => simp [hF, hP] at hs
        | some p =>
          simp only [hF, hP] at hs ⊢
          cases hd : divV f p with
          | none => simp [hd] at hs
          | some C' => exact ⟨C', rfl⟩
    obtain ⟨C', hC'⟩ := hw
    rw [hC']
    constructor
    · rintro ⟨w, C1, he, hA'⟩; obtain ⟨rfl, rfl⟩ := DirRes.ok.inj he; exact ⟨_, _, rfl, hA'⟩
    · rintro ⟨w, C1, he, hA'⟩; obtain ⟨rfl, rfl⟩ := DirRes.ok.inj he; exact ⟨_, _, rfl, hA'⟩

theorem uniform1_lt {w : ℝ} (h0 : 0 ≤ w) (h1 : w ≤ 1) : uniform1 (Iio w) = ENNReal.ofReal w ∧ uniform1 (Ici w) = ENNReal.ofReal (1 - w) := by
  unfold uniform1
  constructor
  · rw [Measure.restrict_apply measurableSet_Iio]
    have : Iio w ∩ Ico 0 1 = Ico 0 w := by
      ext x; simp only [mem_inter_iff, mem_Iio, mem_Ico]
      constructor
      · rintro ⟨a, b, c⟩; exact ⟨b, a⟩
      · rintro ⟨a, b⟩; exact ⟨b, a, by linarith⟩
    rw [this, Real.volume_Ico, sub_zero]
  · rw [Measure.restrict_apply measurableSet_Ici]
    have : Ici w ∩ Ico 0 1 = Ico w 1 := by
      ext x; simp only [mem_inter_iff, mem_Ici, mem_Ico]
      constructor
      · rintro ⟨a, b, c⟩; exact ⟨a, c⟩
      · rintro ⟨a, b⟩; exact ⟨a, by linarith, b⟩
    rw [this, Real.volume_Ico]

/-- C80. The diffuse/glossy component of the material of OBJ models samples directions with the density it reports. -/
theorem C80_obj_mixture (Kd : Geom → V3 ℝ) (Ks : V3 ℝ) (ax ay : ℝ) (hax : 0 < ax) (hay : 0 < ay) (alpha : Geom → ℝ) (g : Geom) (wi : V3 ℝ) (h : OnSurface g) (hi : V3.dot wi wi = 1)
    (hw : V3.dot wi g.n ≠ 0) (hKd : 0 ≤ compMax (Kd g)) (hKs : 0 ≤ compMax Ks) : MaterialDensity (objMixture (diffuse Kd) (glossy Ks ax ay) alpha) 0 g wi := by
  intro dir
  obtain ⟨d1, d2, _⟩ := C45_diffuse Kd g wi h hw
  obtain ⟨g1, g2, _⟩ := C45_glossy Ks ax ay hax hay g wi h hi hw
  obtain ⟨w, hw1, hw0, hwl⟩ := diffuseProb_spec (diffuse Kd) (glossy Ks ax ay) g hKd hKs
  have hest := (C45_obj_mixture_partial Kd Ks ax ay hax hay alpha g wi h hi hw hKd hKs).1
  have hfd := diffuse_free Kd 0 g wi h hw
  have hfg := glossy_free Ks ax ay hax hay 0 g wi h hi hw
  set Pd : V3 ℝ → ℝ≥0∞ := fun d => dens ((diffuse Kd).pdfDirection g wi d 0 false) with hPd
  set Pg : V3 ℝ → ℝ≥0∞ := fun d => dens ((glossy Ks ax ay).pdfDirection g wi d 0 false) with hPg
  have hPdm : AEMeasurable Pd (projSolidAngle g.n) := (hfd.2 dir).1
  have hPgm : AEMeasurable Pg (projSolidAngle g.n) := (hfg.2 dir).1
  have hdens : ∀ᵐ d ∂projSolidAngle g.n, dens ((objMixture (diffuse Kd) (glossy Ks ax ay) alpha).pdfDirection g wi d 0 false) = ENNReal.ofReal w * Pd d + ENNReal.ofReal (1 - w) * Pg d := by
    refine (projSA_unit g.n).mono fun d hd => ?_
    obtain ⟨⟨pd, hpd, hpd0⟩, _⟩ := d2 0 d hd
    obtain ⟨⟨pg, hpg, hpg0⟩, _⟩ := g2 0 d hd
    have hp : (objMixture (diffuse Kd) (glossy Ks ax ay) alpha).pdfDirection g wi d 0 false = some (w * pd + (1 - w) * pg) := by
      simp [objMixture, objPdf, hw1, hpd, hpg]
    rw [hp, hPd, hPg]
    simp only [hpd, hpg, dens]
    rw [ENNReal.ofReal_add (mul_nonneg hw0 hpd0) (mul_nonneg (by linarith) hpg0), ENNReal.ofReal_mul hw0, ENNReal.ofReal_mul (by linarith)]
  refine ⟨((hPdm.const_mul _).add (hPgm.const_mul _)).congr (hdens.mono fun d hd => hd.symm), fun A hA => ?_⟩
  set E : Nat → Set (ℝ × ℝ) := fun i => event (fun q : ℝ × ℝ => (if i = 0 then diffuse Kd else glossy Ks ax ay).sampleDirection ⟨q.1, q.2, 0⟩ g wi 0 dir) A with hE
  have hlaw := select_law 2 (fun i => if i = 0 then Iio w else Ici w) E (event (fun u : ℝ × ℝ × ℝ => (objMixture (diffuse Kd) (glossy Ks ax ay) alpha).sampleDirection ⟨u.1, u.2.1, u.2.2⟩ g wi 0 dir) A) ?_ ?_ ?_ ?_
  · refine ⟨hlaw.1, ?_⟩
    rw [hlaw.2, lintegral_congr_ae (ae_restrict_of_ae hdens), lintegral_add_left' (hPdm.const_mul _).restrict, lintegral_const_mul' _ _ ENNReal.ofReal_ne_top, lintegral_const_mul' _ _ ENNReal.ofReal_ne_top]
    rw [Finset.sum_range_succ, Finset.sum_range_one]
    simp only [hE, if_true, one_ne_zero, if_false]
    rw [(uniform1_lt hw0 hwl).1, (uniform1_lt hw0 hwl).2, ((hfd.2 dir).2 A hA).2, ((hfg.2 dir).2 A hA).2]
  · intro i _
    by_cases h0 : i = 0
    · simp only [h0, if_true]; exact measurableSet_Iio
    · simp only [h0, if_false]; exact measurableSet_Ici
  · intro i hi' j hj hij
    rw [Set.disjoint_left]
    intro x hx hy
    by_cases h0 : i = 0
    · have h1 : j ≠ 0 := by omega
      simp only [h0, if_true, h1, if_false, mem_Iio, mem_Ici] at hx hy
      linarith
    · have h1 : j = 0 := by omega
      simp only [h0, if_false, h1, if_true, mem_Iio, mem_Ici] at hx hy
      linarith
  · intro i _
    simp only [hE]
    by_cases h0 : i = 0
    · simp only [h0, if_true]; exact ((hfd.2 dir).2 A hA).1
    · simp only [h0, if_false]; exact ((hfg.2 dir).2 A hA).1
  · intro u hu
    obtain ⟨⟨a0, a1⟩, ⟨b0, b1⟩, c0, c1⟩ := hu
    have hv : (⟨u.1, u.2.1, u.2.2⟩ : DirU).Valid := ⟨⟨a0, a1⟩, ⟨b0, b1⟩, c0, c1⟩
    have hne : (objMixture (diffuse Kd) (glossy Ks ax ay) alpha).sampleDirection ⟨u.1, u.2.1, u.2.2⟩ g wi 0 dir ≠ .undef := by
      intro hc
      have := hest ⟨u.1, u.2.1, u.2.2⟩ dir hv
      rw [hc] at this
      exact this
    have hsd : (objMixture (diffuse Kd) (glossy Ks ax ay) alpha).sampleDirection ⟨u.1, u.2.1, u.2.2⟩ g wi 0 dir =
        match (if u.2.2 < w then diffuse Kd else glossy Ks ax ay).sampleDirection ⟨u.1, u.2.1, u.2.2⟩ g wi 0 dir with
        | .ok wo _ => weightOf wo (objEval (diffuse Kd) (glossy Ks ax ay) alpha g wi wo 0 dir false) (objPdf (diffuse Kd) (glossy Ks ax ay) g wi wo 0 false)
        | r => r := by
      simp only [objMixture, if_true, hw1]
      rfl
    have hre := reweigh (r := (if u.2.2 < w then diffuse Kd else glossy Ks ax ay).sampleDirection ⟨u.1, u.2.1, u.2.2⟩ g wi 0 dir)
      (F := fun wo => objEval (diffuse Kd) (glossy Ks ax ay) alpha g wi wo 0 dir false) (P := fun wo => objPdf (diffuse Kd) (glossy Ks ax ay) g wi wo 0 false)
      (fun e => by rw [hsd, e]) (fun e => by rw [hsd, e]) (fun wo C e => by rw [hsd, e]) hne A
    refine hre.trans ?_
    by_cases hc : u.2.2 < w
    · simp only [hc, if_true]
      constructor
      · rintro ⟨wo, C, e, hA'⟩
        exact ⟨0, by norm_num, by simpa using hc, wo, C, by simpa using (hfd.1 ⟨u.1, u.2.1, u.2.2⟩ 0 dir) ▸ e, hA'⟩
      · rintro ⟨i, hi', hm, wo, C, e, hA'⟩
        have h0 : i = 0 := by
          by_contra h0
          simp only [h0, if_false, mem_Ici] at hm
          linarith
        subst h0
        exact ⟨wo, C, by rw [hfd.1 ⟨u.1, u.2.1, u.2.2⟩ 0 dir]; simpa using e, hA'⟩
    · simp only [hc, if_false]
      constructor
      · rintro ⟨wo, C, e, hA'⟩
        exact ⟨1, by norm_num, by simpa using hc, wo, C, by simpa using (hfg.1 ⟨u.1, u.2.1, u.2.2⟩ 0 dir) ▸ e, hA'⟩
      · rintro ⟨i, hi', hm, wo, C, e, hA'⟩
        have h0 : i ≠ 0 := by
          intro h0
          simp only [h0, if_true, mem_Iio] at hm
          exact hc hm
        refine ⟨wo, C, ?_, hA'⟩
        rw [hfg.1 ⟨u.1, u.2.1, u.2.2⟩ 0 dir]
        simpa [h0] using e

example : MaterialDensity (objMixture (diffuse fun _ => ⟨1, 1, 1⟩) (glossy ⟨1, 1, 1⟩ (1 / 2) (1 / 4)) fun _ => 1) 0 exGeom ⟨0, 0, 1⟩ :=
  C80_obj_mixture _ _ _ _ (by norm_num) (by norm_num) _ _ _ (by simp [OnSurface, MathF.Orthonormal, exGeom, V3.dot, V3.cross]) (by simp [V3.dot]) (by simp [exGeom, V3.dot]) (by simp [compMax]) (by simp [compMax])

theorem two : ∃ c, distOf [1, 1] = some c ∧ Dist.pmf c 0 = 1 / 2 ∧ Dist.pmf c 1 = 1 / 2 ∧ ∀ u : ℝ, 0 ≤ u → u < 1 → Dist.sample c u = some (if u < 1 / 2 then 0 else 1) := by
  obtain ⟨c, h1, h2, h3⟩ := Dist.C28_sample (K := ℝ) [1, 1] (by simp) (by simp)
  refine ⟨c, by rw [distOf_eq]; exact h1, ?_, ?_, ?_⟩
  · rw [← Int.natCast_zero, ← h2 0 (by simp)]; simp [Dist.cum]; norm_num
  · rw [← Int.natCast_one, ← h2 1 (by simp)]; simp [Dist.cum]; norm_num
  · intro u h0 h1
    by_cases hc : u < 1 / 2
    · rw [if_pos hc]
      refine ((h3 u h0 h1).2 0 (by simp)).mpr ?_
      simp [Dist.cum]
      norm_num at hc ⊢
      exact ⟨h0, hc⟩
    · rw [if_neg hc]
      refine ((h3 u h0 h1).2 1 (by simp)).mpr ?_
      simp [Dist.cum]
      norm_num at hc ⊢
      exact ⟨hc, h1⟩

noncomputable def exD : Mat := diffuse fun _ => ⟨1, 1, 1⟩
noncomputable def exG : Mat := glossy ⟨1, 1, 1⟩ 1 1
noncomputable def exInner : Mat := mixtureMarg [(exD, 1), (exG, 1)]
noncomputable def exOuter : Mat := mixtureMarg [(exInner, 1), (exD, 1)]

theorem exD_good : EstimatesAt exD 0 exGeom ⟨0, 0, 1⟩ ∧ Defined exD 0 exGeom ⟨0, 0, 1⟩ ∧ FreeDensity exD 0 exGeom ⟨0, 0, 1⟩ := by
  have hs : OnSurface exGeom := by simp [OnSurface, MathF.Orthonormal, exGeom, V3.dot, V3.cross]
  have hw : V3.dot (⟨0, 0, 1⟩ : V3 ℝ) exGeom.n ≠ 0 := by simp [exGeom, V3.dot]
  obtain ⟨a, b, _⟩ := C45_diffuse (fun _ => ⟨1, 1, 1⟩) exGeom ⟨0, 0, 1⟩ hs hw
  exact ⟨a 0, b 0, diffuse_free _ 0 _ _ hs hw⟩

theorem exG_good : EstimatesAt exG 0 exGeom ⟨0, 0, 1⟩ ∧ Defined exG 0 exGeom ⟨0, 0, 1⟩ ∧ FreeDensity exG 0 exGeom ⟨0, 0, 1⟩ := by
  have hs : OnSurface exGeom := by simp [OnSurface, MathF.Orthonormal, exGeom, V3.dot, V3.cross]
  have hw : V3.dot (⟨0, 0, 1⟩ : V3 ℝ) exGeom.n ≠ 0 := by simp [exGeom, V3.dot]
  have hi : V3.dot (⟨0, 0, 1⟩ : V3 ℝ) ⟨0, 0, 1⟩ = 1 := by simp [V3.dot]
  obtain ⟨a, b, _⟩ := C45_glossy ⟨1, 1, 1⟩ 1 1 one_pos one_pos exGeom ⟨0, 0, 1⟩ hs hi hw
  exact ⟨a 0, b 0, glossy_free _ _ _ one_pos one_pos 0 _ _ hs hi hw⟩

theorem exInner_groups : groups [(exD, 1), (exG, 1)] = [[(exD, (1 : ℝ)), (exG, 1)]] := by
  simp [groups, addEntry, exD, exG, diffuse, glossy]

theorem exOuter_groups : groups [(exInner, 1), (exD, 1)] = [[(exInner, (1 : ℝ)), (exD, 1)]] := by
  simp [groups, addEntry, exD, exInner, diffuse, mixtureMarg]

theorem exInner_density : MaterialDensity exInner 0 exGeom ⟨0, 0, 1⟩ := by
  refine C80_mixture_marginalized_partial [(exD, 1), (exG, 1)] exGeom ⟨0, 0, 1⟩ (by simp) (by simp) 0 [(exD, 1), (exG, 1)] (by rw [exInner_groups]; rfl) (by simp) ?_ ?_
  · intro e he
    simp only [List.mem_cons, List.not_mem_nil, or_false] at he
    rcases he with rfl | rfl
    · exact ⟨exD_good.1, exD_good.2.1⟩
    · exact ⟨exG_good.1, exG_good.2.1⟩
  · intro e he
    simp only [List.mem_cons, List.not_mem_nil, or_false] at he
    rcases he with rfl | rfl
    · exact exD_good.2.2
    · exact exG_good.2.2

example : MaterialDensity exInner 0 exGeom ⟨0, 0, 1⟩ := exInner_density

/-- The density of a mixture of two materials with equal weights. -/
theorem two_pdf (a b : Mat) (d : V3 ℝ) (p q : ℝ) (g : Geom) (wi : V3 ℝ) (ha : a.pdfDirection g wi d 0 false = some p) (hb : b.pdfDirection g wi d 0 false = some q) :
    groupPdf [(a, 1), (b, 1)] g wi d false = some (1 / 2 * p + 1 / 2 * q) := by
  obtain ⟨c, hc, h0, h1, _⟩ := two
  simp [groupPdf, hc, List.zipIdx, ha, hb, h0, h1]

theorem exInner_defined : Defined exInner 0 exGeom ⟨0, 0, 1⟩ := by
  intro wo hwo
  obtain ⟨⟨p, hp, hp0⟩, hf⟩ := exD_good.2.1 wo hwo
  obtain ⟨⟨q, hq, hq0⟩, hf'⟩ := exG_good.2.1 wo hwo
  refine ⟨⟨1 / 2 * p + 1 / 2 * q, ?_, by positivity⟩, fun dir => ?_⟩
  · simp only [exInner, mixtureMarg, exInner_groups, List.getElem?_cons_zero, Option.bind_some]
    exact two_pdf _ _ _ _ _ _ _ hp hq
  · obtain ⟨f, hf⟩ := hf dir
    obtain ⟨f', hf'⟩ := hf' dir
    refine ⟨f + f', ?_⟩
    simp only [exInner, mixtureMarg, exInner_groups, List.getElem?_cons_zero, Option.bind_some]
    simp [groupEval, hf, hf']

theorem exInner_est : EstimatesAt exInner 0 exGeom ⟨0, 0, 1⟩ := by
  refine (C45_mixture_marginalized [(exD, 1), (exG, 1)] exGeom ⟨0, 0, 1⟩ (by simp) (by simp)).2 0 [(exD, 1), (exG, 1)] (by rw [exInner_groups]; rfl) (by simp) ?_
  intro e he
  simp only [List.mem_cons, List.not_mem_nil, or_false] at he
  rcases he with rfl | rfl
  · exact ⟨exD_good.1, exD_good.2.1⟩
  · exact ⟨exG_good.1, exG_good.2.1⟩

theorem exOuter_est : EstimatesAt exOuter 0 exGeom ⟨0, 0, 1⟩ := by
  refine (C45_mixture_marginalized [(exInner, 1), (exD, 1)] exGeom ⟨0, 0, 1⟩ (by simp) (by simp)).2 0 [(exInner, 1), (exD, 1)] (by rw [exOuter_groups]; rfl) (by simp) ?_
  intro e he
  simp only [List.mem_cons, List.not_mem_nil, or_false] at he
  rcases he with rfl | rfl
  · exact ⟨exInner_est, exInner_defined⟩
  · exact ⟨exD_good.1, exD_good.2.1⟩

theorem weightOf_ne_fail (wo : V3 ℝ) (f : Option (V3 ℝ)) (p : Option ℝ) : weightOf wo f p ≠ .fail := by
  unfold weightOf
  cases f with
  | none => simp
  | some f =>
    cases p with
    | none => simp
    | some p => cases hd : divV f p <;> simp [hd]

theorem exD_no_fail (us : DirU) (dir : TransDir) : exD.sampleDirection us exGeom ⟨0, 0, 1⟩ 0 dir ≠ .fail := by
  unfold exD diffuse
  simp

/-- A half vector sampled with u₁ ≥ 1/2 reflects the normal below the surface. -/
theorem exG_fail (us : DirU) (dir : TransDir) (h : 1 / 2 ≤ us.ud1) (h1 : us.ud1 < 1) : exG.sampleDirection us exGeom ⟨0, 0, 1⟩ 0 dir = .fail := by
  have hb : basisTwosided exGeom ⟨0, 0, 1⟩ = (exGeom.n, exGeom.u, exGeom.v) := by
    simp [basisTwosided, exGeom, V3.dot]
  set r := safeSqrt (us.ud1 / (1 - us.ud1)) with hr
  have hq : 1 ≤ us.ud1 / (1 - us.ud1) := by rw [le_div_iff₀ (by linarith)]; linarith
  have hr2 : 1 ≤ r * r := by
    rw [hr]
    unfold safeSqrt
    rw [max_eq_right (by linarith), Real.mul_self_sqrt (by linarith)]
    exact hq
  set c := Real.cos (us.ud0 * 2 * π) with hc
  set t := Real.sin (us.ud0 * 2 * π) with ht
  have hct : c ^ 2 + t ^ 2 = 1 := by rw [hc, ht]; exact Real.cos_sq_add_sin_sq _
  set P : V3 ℝ := r • ((1 * c) • exGeom.u + (1 * t) • exGeom.v) + exGeom.n with hP
  have hPx : P = ⟨r * c, r * t, 1⟩ := by
    rw [hP]
    ext <;> simp [exGeom]
  have hPP : V3.dot P P = r * r + 1 := by
    rw [hPx]; simp only [V3.dot]; linear_combination r * r * hct
  have hD : 0 < r * r + 1 := by nlinarith
  have hn : Material.normalize P = some ((1 / Real.sqrt (r * r + 1)) • P) := by
    simp only [Material.normalize, hPP]
    rw [if_neg hD.ne']
  unfold exG glossy
  simp only [hb]
  rw [← hr, ← hc, ← ht, ← hP, hn]
  simp only
  rw [if_pos]
  set k := 1 / Real.sqrt (r * r + 1) with hk
  have hk2 : k * k * (r * r + 1) = 1 := by
    rw [hk]
    have h2 := Real.mul_self_sqrt hD.le
    have h0 := Real.sqrt_pos.mpr hD
    rw [div_mul_div_comm, h2, one_mul, one_div, inv_mul_cancel₀ hD.ne']
  have hle : k * k * 2 ≤ 1 := by nlinarith [mul_self_nonneg k]
  rw [hPx]
  simp only [opposite, reflection, V3.dot, exGeom]
  simp
  nlinarith

/-- C80, negation. Mixtures may be nested, and the inner mixture then selects with the very random number the outer one has already selected with:
    the glossy material of the inner mixture is never sampled although both mixtures give it half of the weight. -/
theorem C80_negation_nested_mixture : ¬ MaterialDensity exOuter 0 exGeom ⟨0, 0, 1⟩ := by
  intro hm
  obtain ⟨_, hA⟩ := hm .EL
  obtain ⟨_, hA⟩ := hA univ MeasurableSet.univ
  obtain ⟨_, hI⟩ := exInner_density .EL
  obtain ⟨_, hI⟩ := hI univ MeasurableSet.univ
  obtain ⟨_, hD⟩ := (materialDensity_of_free exD_good.2.2) .EL
  obtain ⟨_, hD⟩ := hD univ MeasurableSet.univ
  obtain ⟨c, hc, hp0, hp1, hsamp⟩ := two
  have hone : uniform3 univ = 1 := by
    unfold uniform3
    rw [Measure.restrict_apply MeasurableSet.univ, univ_inter]
    simp [Measure.volume_eq_prod]
  -- the outer mixture always samples a direction
  have hL : uniform3 (event (fun u : ℝ × ℝ × ℝ => exOuter.sampleDirection ⟨u.1, u.2.1, u.2.2⟩ exGeom ⟨0, 0, 1⟩ 0 .EL) univ) = 1 := by
    rw [← hone]
    refine measure_congr ?_
    refine cube_ae.mono fun u hu => ?_
    obtain ⟨⟨a0, a1⟩, ⟨b0, b1⟩, c0, c1⟩ := hu
    have hv : (⟨u.1, u.2.1, u.2.2⟩ : DirU).Valid := ⟨⟨a0, a1⟩, ⟨b0, b1⟩, c0, c1⟩
    have hest := exOuter_est ⟨u.1, u.2.1, u.2.2⟩ .EL hv
    have hnf : exOuter.sampleDirection ⟨u.1, u.2.1, u.2.2⟩ exGeom ⟨0, 0, 1⟩ 0 .EL ≠ .fail := by
      have hin : u.2.2 < 1 / 2 → exInner.sampleDirection ⟨u.1, u.2.1, u.2.2⟩ exGeom ⟨0, 0, 1⟩ 0 .EL ≠ .fail := by
        intro h2
        simp only [exInner, mixtureMarg, exInner_groups, List.getElem?_cons_zero, List.map_cons, List.map_nil, hc, Option.bind_some, hsamp u.2.2 c0 c1, if_pos h2]
        have := exD_no_fail ⟨u.1, u.2.1, u.2.2⟩ .EL
        cases hr : exD.sampleDirection ⟨u.1, u.2.1, u.2.2⟩ exGeom ⟨0, 0, 1⟩ 0 .EL with
        | fail => exact absurd hr this
        | undef => simp
        | ok wo C => exact weightOf_ne_fail _ _ _
      by_cases h2 : u.2.2 < 1 / 2
      · simp only [exOuter, mixtureMarg, exOuter_groups, List.getElem?_cons_zero, List.map_cons, List.map_nil, hc, Option.bind_some, hsamp u.2.2 c0 c1, if_pos h2]
        have := hin h2
        cases hr : exInner.sampleDirection ⟨u.1, u.2.1, u.2.2⟩ exGeom ⟨0, 0, 1⟩ 0 .EL with
        | fail => exact absurd hr this
        | undef => simp
        | ok wo C => exact weightOf_ne_fail _ _ _
      · simp only [exOuter, mixtureMarg, exOuter_groups, List.getElem?_cons_zero, List.map_cons, List.map_nil, hc, Option.bind_some, hsamp u.2.2 c0 c1, if_neg h2, List.getElem?_cons_succ]
        have := exD_no_fail ⟨u.1, u.2.1, u.2.2⟩ .EL
        cases hr : exD.sampleDirection ⟨u.1, u.2.1, u.2.2⟩ exGeom ⟨0, 0, 1⟩ 0 .EL with
        | fail => exact absurd hr this
        | undef => simp
        | ok wo C => exact weightOf_ne_fail _ _ _
    have : u ∈ event (fun u : ℝ × ℝ × ℝ => exOuter.sampleDirection ⟨u.1, u.2.1, u.2.2⟩ exGeom ⟨0, 0, 1⟩ 0 .EL) univ := by
      cases hr : exOuter.sampleDirection ⟨u.1, u.2.1, u.2.2⟩ exGeom ⟨0, 0, 1⟩ 0 .EL with
      | fail => exact absurd hr hnf
      | undef => rw [hr] at hest; exact absurd hest id
      | ok wo C => exact ⟨wo, C, hr, mem_univ _⟩
    exact propext ⟨fun _ => mem_univ u, fun _ => this⟩
  -- the inner mixture fails with probability at least a quarter
  have hIle : uniform3 (event (fun u : ℝ × ℝ × ℝ => exInner.sampleDirection ⟨u.1, u.2.1, u.2.2⟩ exGeom ⟨0, 0, 1⟩ 0 .EL) univ) ≤ ENNReal.ofReal (3 / 4) := by
    set B : Set (ℝ × ℝ × ℝ) := Ico 0 1 ×ˢ Ico (1 / 2) 1 ×ˢ Ico (1 / 2) 1 with hB
    have hBm : MeasurableSet B := measurableSet_Ico.prod (measurableSet_Ico.prod measurableSet_Ico)
    have hBv : uniform3 B = ENNReal.ofReal (1 / 4) := by
      unfold uniform3
      rw [Measure.restrict_apply hBm]
      have : B ∩ Ico 0 1 ×ˢ Ico 0 1 ×ˢ Ico 0 1 = B := by
        rw [inter_eq_left]
        rintro ⟨x, y, z⟩ ⟨h1, h2, h3⟩
        refine ⟨h1, ⟨?_, h2.2⟩, ?_, h3.2⟩
        · exact le_trans (by norm_num) h2.1
        · exact le_trans (by norm_num) h3.1
      rw [this, hB, Measure.volume_eq_prod, Measure.prod_prod, Measure.volume_eq_prod, Measure.prod_prod, Real.volume_Ico, Real.volume_Ico, ← ENNReal.ofReal_mul (by norm_num), ← ENNReal.ofReal_mul (by norm_num)]
      norm_num
    have hsub : event (fun u : ℝ × ℝ × ℝ => exInner.sampleDirection ⟨u.1, u.2.1, u.2.2⟩ exGeom ⟨0, 0, 1⟩ 0 .EL) univ ⊆ Bᶜ := by
      rintro u ⟨wo, C, hok, _⟩ ⟨h1, h2, h3⟩
      have hc0 : 0 ≤ u.2.2 := le_trans (by norm_num) h3.1
      simp only [exInner, mixtureMarg, exInner_groups, List.getElem?_cons_zero, List.map_cons, List.map_nil, hc, Option.bind_some, hsamp u.2.2 hc0 h3.2, if_neg (not_lt.mpr h3.1), List.getElem?_cons_succ] at hok
      rw [exG_fail ⟨u.1, u.2.1, u.2.2⟩ .EL h2.1 h2.2] at hok
      cases hok
    refine (measure_mono hsub).trans ?_
    have : IsFiniteMeasure uniform3 := ⟨by rw [hone]; exact ENNReal.one_lt_top⟩
    rw [measure_compl hBm (measure_ne_top _ _), hone, hBv, ← ENNReal.ofReal_one, ← ENNReal.ofReal_sub _ (by norm_num)]
    exact ENNReal.ofReal_le_ofReal (by norm_num)
  have hDle : uniform3 (event (fun u : ℝ × ℝ × ℝ => exD.sampleDirection ⟨u.1, u.2.1, u.2.2⟩ exGeom ⟨0, 0, 1⟩ 0 .EL) univ) ≤ 1 := hone ▸ measure_mono (subset_univ _)
  -- the reported density is the mean of those of the two materials
  have hdens : ∀ᵐ d ∂projSolidAngle exGeom.n, dens (exOuter.pdfDirection exGeom ⟨0, 0, 1⟩ d 0 false) =
      ENNReal.ofReal (1 / 2) * dens (exInner.pdfDirection exGeom ⟨0, 0, 1⟩ d 0 false) + ENNReal.ofReal (1 / 2) * dens (exD.pdfDirection exGeom ⟨0, 0, 1⟩ d 0 false) := by
    refine (projSA_unit _).mono fun d hd => ?_
    obtain ⟨p, hp, hp0⟩ := (exInner_defined d hd).1
    obtain ⟨q, hq, hq0⟩ := (exD_good.2.1 d hd).1
    have : exOuter.pdfDirection exGeom ⟨0, 0, 1⟩ d 0 false = some (1 / 2 * p + 1 / 2 * q) := by
      simp only [exOuter, mixtureMarg, exOuter_groups, List.getElem?_cons_zero, Option.bind_some]
      exact two_pdf _ _ _ _ _ _ _ hp hq
    rw [this, hp, hq]
    simp only [dens]
    rw [ENNReal.ofReal_add (by positivity) (by positivity), ENNReal.ofReal_mul (by norm_num), ENNReal.ofReal_mul (by norm_num)]
  have hmeas : AEMeasurable (fun d => ENNReal.ofReal (1 / 2) * dens (exInner.pdfDirection exGeom ⟨0, 0, 1⟩ d 0 false)) (projSolidAngle exGeom.n) := (exInner_density .EL).1.const_mul _
  rw [hL, Measure.restrict_univ, lintegral_congr_ae hdens, lintegral_add_left' hmeas, lintegral_const_mul' _ _ ENNReal.ofReal_ne_top, lintegral_const_mul' _ _ ENNReal.ofReal_ne_top] at hA
  rw [Measure.restrict_univ] at hI hD
  rw [← hI, ← hD] at hA
  have : (1 : ℝ≥0∞) ≤ ENNReal.ofReal (7 / 8) := by
    calc (1 : ℝ≥0∞) ≤ ENNReal.ofReal (1 / 2) * ENNReal.ofReal (3 / 4) + ENNReal.ofReal (1 / 2) * 1 := by
          conv_lhs => rw [hA]
          gcongr
      _ = ENNReal.ofReal (7 / 8) := by
          rw [mul_one, ← ENNReal.ofReal_mul (by norm_num), ← ENNReal.ofReal_add (by norm_num) (by norm_num)]
          norm_num
  rw [← ENNReal.ofReal_one, ENNReal.ofReal_le_ofReal_iff (by norm_num)] at this
  norm_num at this

end LM.Solid
