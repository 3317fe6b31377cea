import Verif.Props.C82_Lights
/-
  C82: what the path tracer requires of materials, and which materials meet it.
-/
namespace LM.Transport
open MeasureTheory LM LM.Surface LM.Material LM.Light LM.MathF LM.Path LM.Render LM.Solid
open scoped ENNReal

/-- A component that scatters with a BSDF. -/
structure Smooth (m : Mat) (c : ℕ) (g : Geom) (wi : V3 ℝ) : Prop where
  kind : m.isSpecular c = some false
  unbiased : MaterialUnbiased m c g wi
  estimates : EstimatesAt m c g wi
  covers : Covers m c g wi
  eval : ∃ F : V3 ℝ → V3 ℝ, Measurable F ∧ ∀ d, V3.dot d d = 1 → NonNeg (F d) ∧ ∀ e, m.eval g wi d c .EL e = some (F d)
  pdf : ∃ P : V3 ℝ → ℝ, Measurable P ∧ ∀ d, V3.dot d d = 1 → ∀ e, m.pdfDirection g wi d c e = some (P d)

/-- A component that scatters into one direction. -/
structure Specular (m : Mat) (c : ℕ) (g : Geom) (wi : V3 ℝ) : Prop where
  kind : m.isSpecular c = some true
  direction : ∃ wo C, V3.dot wo wo = 1 ∧ NonNeg C ∧ (∀ us, m.sampleDirection us g wi c .EL = .ok wo C) ∧ m.eval g wi wo c .EL false = some C

/-- The components `C` of a material are selected, and scatter, as they should. -/
structure MatOk (m : Mat) (g : Geom) (wi : V3 ℝ) (C : Finset ℕ) : Prop where
  pick : ∀ u, 0 ≤ u → u < 1 → ∃ c w, m.sampleComponent u g wi = some (c, w) ∧ c ∈ C ∧ 0 ≤ w
  sum : ∀ F : ℕ → ℝ≥0∞, ∫⁻ u, compWorth F (m.sampleComponent u g wi) ∂uniform1 = ∑ c ∈ C, F c
  comp : ∀ c ∈ C, Smooth m c g wi ∨ Specular m c g wi

theorem single_ok {m : Mat} {g : Geom} {wi : V3 ℝ} (h : ∀ u, m.sampleComponent u g wi = some (0, 1)) (hc : Smooth m 0 g wi ∨ Specular m 0 g wi) : MatOk m g wi {0} := by
  refine ⟨fun u _ _ => ⟨0, 1, h u, by simp, zero_le_one⟩, fun F => ?_, fun c hc' => ?_⟩
  · rw [single_select h F]; simp
  · rw [Finset.mem_singleton] at hc'; rw [hc']; exact hc

theorem diffuse_smooth (Kd : Geom → V3 ℝ) (c : ℕ) (g : Geom) (wi : V3 ℝ) (h : OnSurface g) (hw : V3.dot wi g.n ≠ 0) (hK : NonNeg (Kd g)) : Smooth (diffuse Kd) c g wi := by
  classical
  refine ⟨rfl, C81_diffuse Kd c g wi h hw, (C45_diffuse Kd g wi h hw).1 c, (diffuse_covers Kd c g wi).1, ⟨fun d => if d ∈ {d | opposite g wi d = false} then (1 / Real.pi) • Kd g else 0, ?_, fun d _ => ⟨?_, fun e => ?_⟩⟩,
    ⟨fun d => if d ∈ {d | opposite g wi d = false} then 1 / Real.pi else 0, ?_, fun d _ e => ?_⟩⟩
  · exact Measurable.ite (opposite_measurable g wi) measurable_const measurable_const
  · dsimp only
    split
    · exact nonneg_smul (by positivity) hK
    · exact ⟨le_rfl, le_rfl, le_rfl⟩
  · simp only [diffuse, Set.mem_ofPred_eq]
    by_cases ho : opposite g wi d = true <;> simp [ho]
  · exact Measurable.ite (opposite_measurable g wi) measurable_const measurable_const
  · simp only [diffuse, Set.mem_ofPred_eq]
    by_cases ho : opposite g wi d = true <;> simp [ho]

/-- The diffuse material is one. -/
theorem diffuse_ok (Kd : Geom → V3 ℝ) (g : Geom) (wi : V3 ℝ) (h : OnSurface g) (hw : V3.dot wi g.n ≠ 0) (hK : NonNeg (Kd g)) : MatOk (diffuse Kd) g wi {0} :=
  single_ok (fun _ => rfl) (.inl (diffuse_smooth Kd 0 g wi h hw hK))

theorem glossy_pdf_measurable (ax ay : ℝ) (hax : 0 < ax) (hay : 0 < ay) (g : Geom) (wi : V3 ℝ) (h : OnSurface g) (hi : V3.dot wi wi = 1) (hw : V3.dot wi g.n ≠ 0) :
    ∃ P : V3 ℝ → ℝ, Measurable P ∧ ∀ d, V3.dot d d = 1 → glossyPdf ax ay g wi d = some (P d) := by
  classical
  obtain ⟨n, u, v, hb, hon, hwi, hside⟩ := twosided g wi h hw
  have hH : Measurable fun d : V3 ℝ => dirOf (wi + d) := measurable_dirOf.comp (measurable_add3 measurable_const measurable_id)
  refine ⟨fun d => if d ∈ {d | opposite g wi d = false} then ggxD ax ay u v n (dirOf (wi + d)) * V3.dot (dirOf (wi + d)) n / (4 * V3.dot (dirOf (wi + d)) wi * V3.dot d n) else 0,
    Measurable.ite (opposite_measurable g wi) ?_ measurable_const, fun d hd => ?_⟩
  · exact (((measurable_ggxD ax ay u v n).comp hH).mul ((measurable_dotc n).comp hH)).div ((((measurable_dotc wi).comp hH).const_mul _).mul (measurable_dotc n))
  · by_cases ho : opposite g wi d = true
    · simp [glossyPdf, ho]
    · rw [Bool.not_eq_true] at ho
      rw [(glossyPdf_half hax hay hi hb hwi hside hd ho).2.2.2]
      simp only [Set.mem_ofPred_eq, ho, if_true]

theorem G1_nonneg (ax ay : ℝ) (w u v n : V3 ℝ) : 0 ≤ G1 ax ay w u v n := by
  unfold G1
  dsimp only
  split
  · exact le_rfl
  · have : ∀ x, 0 ≤ safeSqrt x := fun x => by unfold safeSqrt; exact Real.sqrt_nonneg _
    have := this (1 + ((V3.dot w u / max Eps (safeSqrt (1 - V3.dot w n * V3.dot w n)) * ax) ^ 2 + (V3.dot w v / max Eps (safeSqrt (1 - V3.dot w n * V3.dot w n)) * ay) ^ 2) * (max Eps (safeSqrt (1 - V3.dot w n * V3.dot w n)) / V3.dot w n) ^ 2)
    positivity

theorem glossy_nonneg (Ks : V3 ℝ) (ax ay : ℝ) (hax : 0 < ax) (hay : 0 < ay) (g : Geom) (wi : V3 ℝ) (h : OnSurface g) (hw : V3.dot wi g.n ≠ 0) (hK : NonNeg Ks) (hK1 : NonNeg (V3.all 1 - Ks))
    (d f : V3 ℝ) (hd : V3.dot d d = 1) (hf : glossyEval Ks ax ay g wi d = some f) : NonNeg f := by
  obtain ⟨n, u, v, hb, hon, hwi, hside⟩ := twosided g wi h hw
  unfold glossyEval at hf
  by_cases ho : opposite g wi d = true
  · rw [if_pos ho] at hf; cases hf; exact ⟨le_rfl, le_rfl, le_rfl⟩
  · rw [if_neg ho, hb] at hf
    rw [Bool.not_eq_true] at ho
    have hwo := (side_of g wi d n u v hside).mp ((opposite_iff _ _ _).mp ho)
    dsimp only at hf
    cases hn : Material.normalize (wi + d) with
    | none => rw [hn] at hf; simp at hf
    | some wh =>
      rw [hn] at hf
      dsimp only at hf
      have hu : V3.dot wh wh = 1 := (normalize_unit hn).1
      cases hD : normalDist ax ay wh u v n with
      | none => rw [hD] at hf; simp at hf
      | some D =>
        rw [hD] at hf
        dsimp only at hf
        have hD0 : 0 ≤ D := by
          unfold normalDist divF at hD
          split at hD
          · simp at hD
          · have := Real.pi_pos
            cases hD; positivity
        have hr := (dot_range hd hu).2
        unfold divF at hf
        split at hf
        · simp at hf
        · rename_i x hx
          split at hx
          · simp at hx
          · cases hx; cases hf
            have hg : 0 ≤ shadowG ax ay wi d u v n := mul_nonneg (G1_nonneg _ _ _ _ _ _) (G1_nonneg _ _ _ _ _ _)
            have h5 : 0 ≤ (1 - V3.dot d wh) ^ 5 := pow_nonneg (by linarith) 5
            obtain ⟨k1, k2, k3⟩ := hK
            obtain ⟨l1, l2, l3⟩ := hK1
            refine nonneg_smul (by positivity) ⟨?_, ?_, ?_⟩ <;> exact mul_nonneg (by assumption) (add_nonneg (by assumption) (mul_nonneg h5 (by assumption)))

theorem glossy_smooth (Ks : V3 ℝ) (ax ay : ℝ) (hax : 0 < ax) (hay : 0 < ay) (c : ℕ) (g : Geom) (wi : V3 ℝ) (h : OnSurface g) (hi : V3.dot wi wi = 1) (hw : V3.dot wi g.n ≠ 0) (hK : NonNeg Ks) (hK1 : NonNeg (V3.all 1 - Ks)) :
    Smooth (glossy Ks ax ay) c g wi := by
  obtain ⟨F, hF, hFe⟩ := (glossy_covers Ks ax ay hax hay c g wi h hi hw).2 .EL
  obtain ⟨P, hP, hPe⟩ := glossy_pdf_measurable ax ay hax hay g wi h hi hw
  exact ⟨rfl, C81_glossy Ks ax ay hax hay c g wi h hi hw, (C45_glossy Ks ax ay hax hay g wi h hi hw).1 c, (glossy_covers Ks ax ay hax hay c g wi h hi hw).1,
    ⟨F, hF, fun d hd => ⟨glossy_nonneg Ks ax ay hax hay g wi h hw hK hK1 d _ hd (hFe d hd), fun _ => hFe d hd⟩⟩, ⟨P, hP, fun d hd _ => hPe d hd⟩⟩

theorem glossy_ok (Ks : V3 ℝ) (ax ay : ℝ) (hax : 0 < ax) (hay : 0 < ay) (g : Geom) (wi : V3 ℝ) (h : OnSurface g) (hi : V3.dot wi wi = 1) (hw : V3.dot wi g.n ≠ 0) (hK : NonNeg Ks) (hK1 : NonNeg (V3.all 1 - Ks)) :
    MatOk (glossy Ks ax ay) g wi {0} := single_ok (fun _ => rfl) (.inl (glossy_smooth Ks ax ay hax hay 0 g wi h hi hw hK hK1))

theorem mirror_ok (g : Geom) (wi : V3 ℝ) (h : OnSurface g) (hi : V3.dot wi wi = 1) : MatOk mirror g wi {0} :=
  single_ok (fun _ => rfl) (.inr ⟨rfl, _, _, by rw [(MathF.C33_reflection wi g.n h.2.2.1).1, hi], ⟨zero_le_one, zero_le_one, zero_le_one⟩, fun _ => rfl, rfl⟩)

theorem mask_ok (g : Geom) (wi : V3 ℝ) (hi : V3.dot wi wi = 1) : MatOk mask g wi {0} :=
  single_ok (fun _ => rfl) (.inr ⟨rfl, _, _, by simp only [V3.dot_neg_left, V3.dot_neg_right, neg_neg, hi], ⟨zero_le_one, zero_le_one, zero_le_one⟩, fun _ => rfl, rfl⟩)

theorem glass_ok (Ni : ℝ) (hNi : 0 < Ni) (g : Geom) (wi : V3 ℝ) (h : OnSurface g) (hi : V3.dot wi wi = 1) (hw : V3.dot wi g.n ≠ 0) :
    MatOk (glass Ni) g wi ((Finset.range 2).filter fun c => (if c = 0 then glassFr Ni g wi else 1 - glassFr Ni g wi) ≠ 0) := by
  obtain ⟨h0, h1⟩ := C45_fresnel_range Ni hNi g wi h hi hw
  obtain ⟨p, hp1, _, _, hsum⟩ := C81_select_glass Ni hNi g wi h hi hw
  obtain ⟨_, e0, e1, _⟩ := C45_glass Ni g wi h hi hw
  have hpe : ∀ c < 2, p c = if c = 0 then glassFr Ni g wi else 1 - glassFr Ni g wi := fun c hc => by
    have := hp1 c hc
    simp only [glass, Option.some.injEq] at this
    exact this.symm
  refine ⟨fun u hu0 hu1 => ?_, fun F => ?_, fun c hc => .inr ?_⟩
  · simp only [glass]
    by_cases hu : u < glassFr Ni g wi
    · have : glassFr Ni g wi ≠ 0 := by linarith
      exact ⟨0, 1 / glassFr Ni g wi, by simp [hu, divF, this], by simp [this], by positivity⟩
    · have : 1 - glassFr Ni g wi ≠ 0 := by linarith
      exact ⟨1, 1 / (1 - glassFr Ni g wi), by simp [hu, divF, this], by simp [this], one_div_nonneg.mpr (by linarith)⟩
  · rw [hsum F]
    refine Finset.sum_congr (Finset.filter_congr fun c hc => ?_) fun _ _ => rfl
    rw [hpe c (Finset.mem_range.mp hc)]
  · rw [Finset.mem_filter, Finset.mem_range] at hc
    obtain ⟨hc2, hcp⟩ := hc
    have hest : EstimatesAt (glass Ni) c g wi := by
      interval_cases c
      · exact e0
      · exact e1 ⟨_, rfl, hcp⟩
    have hev : NonNeg (glassEval Ni g wi c .EL false) := by
      have hx : ∀ x : ℝ, 0 ≤ x → NonNeg (V3.all x) := fun x hx => ⟨hx, hx, hx⟩
      unfold glassEval
      rw [if_neg (by simp)]
      split
      · exact hx _ h0
      · refine hx _ (mul_nonneg (by linarith) ?_)
        simp only [refrCorrection, if_true]; exact mul_self_nonneg _
    have hval : ∀ us dir, us.Valid → ∃ wo C, (glass Ni).sampleDirection us g wi c dir = .ok wo C := fun us dir _ => by
      simp only [glass]
      split
      · obtain ⟨C, hC, _⟩ := weightOf_ok (reflection wi g.n) (glassEval Ni g wi c dir false) 1 one_pos; exact ⟨_, _, hC⟩
      · obtain ⟨C, hC, _⟩ := weightOf_ok (glassWt Ni g wi) (glassEval Ni g wi c dir false) 1 one_pos; exact ⟨_, _, hC⟩
    have hv : (⟨0, 0, 0⟩ : DirU).Valid := ⟨⟨le_rfl, one_pos⟩, ⟨le_rfl, one_pos⟩, le_rfl, one_pos⟩
    obtain ⟨wo, C, hs⟩ := hval ⟨0, 0, 0⟩ .EL hv
    have := hest ⟨0, 0, 0⟩ .EL hv
    rw [hs] at this
    obtain ⟨hu, p', f', ep, ef, hp', hC⟩ := this
    simp only [glass, Bool.false_eq_true, if_false, Option.some.injEq] at ep
    rw [← ep, one_smul] at hC
    refine ⟨rfl, wo, C, hu, ?_, fun us => hs ▸ rfl, by rw [hC]; exact ef⟩
    simp only [glass, Option.some.injEq] at ef
    rw [hC, ← ef]; exact hev

theorem rr_ok (es : List Entry) (g : Geom) (wi : V3 ℝ) (hnn : ∀ e ∈ es, 0 ≤ e.2) (hs : 0 < (es.map (·.2)).sum)
    (he : ∀ e ∈ es, (MaterialDensity e.1 0 g wi ∧ Smooth e.1 0 g wi ∧ MeasurableEval e.1 0 g wi) ∨ Specular e.1 0 g wi) : ∃ C, MatOk (mixtureRR es) g wi C := by
  obtain ⟨p, hp, _, hp0, hsum⟩ := C81_select_rr es g wi hnn hs
  obtain ⟨hsel, hest⟩ := C45_mixture_rr es g wi hnn hs
  refine ⟨(Finset.range es.length).filter fun c => p c ≠ 0, fun u h0 h1 => ?_, hsum, fun c hc => ?_⟩
  · obtain ⟨c, h1', _, h3⟩ := select_ok (es.map (·.2)) (by simpa using fun b a hab => hnn (a, b) hab) hs
    obtain ⟨i, hi, e1, e2, e3⟩ := h3 u h0 h1
    rw [List.length_map] at hi
    refine ⟨i, _, e3, ?_, by positivity⟩
    have := hp i hi
    simp only [mixtureRR, h1', Option.map_some, Option.some.injEq] at this
    rw [Finset.mem_filter, Finset.mem_range, ← this]
    exact ⟨hi, e2.ne'⟩
  · rw [Finset.mem_filter, Finset.mem_range] at hc
    obtain ⟨hcl, -⟩ := hc
    have hget : es[c]? = some es[c] := List.getElem?_eq_getElem hcl
    have hmem := List.getElem_mem hcl
    have hw0 := hnn _ hmem
    rcases he _ hmem with ⟨hd, hsm, hme⟩ | hsp
    · left
      refine ⟨by simp [mixtureRR, hget, hsm.kind], C81_mixture_rr es g wi hnn hs c _ hget hd hsm.estimates hsm.covers hme, hest c _ hget hsm.estimates, ?_, ?_, ?_⟩
      · intro dir wo hu
        obtain ⟨P, F, h1, h2, h3, h4⟩ := hsm.covers dir wo hu
        exact ⟨P, es[c].2 • F, by simp [mixtureRR, hget, h1], by simp [mixtureRR, hget, h2], h3, fun h => by rw [h4 h, smul_zero]⟩
      · obtain ⟨F, hF, hFe⟩ := hsm.eval
        exact ⟨fun d => es[c].2 • F d, measurable_smul3 measurable_const hF, fun d hd => ⟨nonneg_smul hw0 (hFe d hd).1, fun e => by simp [mixtureRR, hget, (hFe d hd).2 e]⟩⟩
      · obtain ⟨P, hP, hPe⟩ := hsm.pdf
        exact ⟨P, hP, fun d hd e => by simp [mixtureRR, hget, hPe d hd e]⟩
    · right
      obtain ⟨wo, C, hu, hC, hsam, hev⟩ := hsp.direction
      exact ⟨by simp [mixtureRR, hget, hsp.kind], wo, es[c].2 • C, hu, nonneg_smul hw0 hC, fun us => by simp [mixtureRR, hget, hsam us], by simp [mixtureRR, hget, hev]⟩

/-- The material of the OBJ models, where it is fully opaque. -/
theorem obj_ok (Kd : Geom → V3 ℝ) (Ks : V3 ℝ) (ax ay : ℝ) (hax : 0 < ax) (hay : 0 < ay) (alpha : Geom → ℝ) (g : Geom) (wi : V3 ℝ) (h : OnSurface g) (hi : V3.dot wi wi = 1) (hw : V3.dot wi g.n ≠ 0)
    (hKd : NonNeg (Kd g)) (hK : NonNeg Ks) (hK1 : NonNeg (V3.all 1 - Ks)) (ha : alpha g = 1) : MatOk (objMixture (diffuse Kd) (glossy Ks ax ay) alpha) g wi {0} := by
  have hmax : ∀ v : V3 ℝ, NonNeg v → 0 ≤ compMax v := fun v hv => le_trans hv.2.2 (le_max_right _ _)
  have hd := diffuse_smooth Kd 0 g wi h hw hKd
  have hg := glossy_smooth Ks ax ay hax hay 0 g wi h hi hw hK hK1
  obtain ⟨w, hw1, hw0, hwl⟩ := diffuseProb_spec (diffuse Kd) (glossy Ks ax ay) g (hmax _ hKd) (hmax _ hK)
  obtain ⟨Fd, mFd, hFd⟩ := hd.eval
  obtain ⟨Fg, mFg, hFg⟩ := hg.eval
  obtain ⟨Pd, mPd, hPd⟩ := hd.pdf
  obtain ⟨Pg, mPg, hPg⟩ := hg.pdf
  have hu := C81_obj_mixture Kd Ks ax ay hax hay alpha g wi h hi hw (hmax _ hKd) (hmax _ hK)
  have he := (C45_obj_mixture_partial Kd Ks ax ay hax hay alpha g wi h hi hw (hmax _ hKd) (hmax _ hK)).1
  have heval : ∀ d, V3.dot d d = 1 → ∀ dir e, (objMixture (diffuse Kd) (glossy Ks ax ay) alpha).eval g wi d 0 dir e = some (Fd d + Fg d) := fun d hd dir e => by
    have e1 : (diffuse Kd).eval g wi d 0 dir e = some (Fd d) := (hFd d hd).2 e
    have e2 : (glossy Ks ax ay).eval g wi d 0 dir e = some (Fg d) := (hFg d hd).2 e
    simp [objMixture, objEval, e1, e2, ha]
  have hpdf : ∀ d, V3.dot d d = 1 → ∀ e, (objMixture (diffuse Kd) (glossy Ks ax ay) alpha).pdfDirection g wi d 0 e = some (w * Pd d + (1 - w) * Pg d) := fun d hd e => by
    simp [objMixture, objPdf, hPd d hd e, hPg d hd e, hw1]
  refine ⟨fun u h0 h1 => ⟨0, 1, by simp [objMixture, ha, h1, divF], by simp, zero_le_one⟩, fun F => ?_, fun c hc => .inl ?_⟩
  · have : ∀ᵐ u ∂uniform1, compWorth F ((objMixture (diffuse Kd) (glossy Ks ax ay) alpha).sampleComponent u g wi) = F 0 := uniform1_ae.mono fun u hu => by simp [objMixture, ha, hu.2, divF, compWorth]
    rw [lintegral_congr_ae this, int1_const]; simp
  · rw [Finset.mem_singleton] at hc
    subst hc
    refine ⟨rfl, hu, he, fun dir wo ho => ?_, ⟨fun d => Fd d + Fg d, measurable_add3 mFd mFg, fun d hd => ⟨?_, heval d hd .EL⟩⟩, ⟨fun d => w * Pd d + (1 - w) * Pg d, (mPd.const_mul _).add (mPg.const_mul _), hpdf⟩⟩
    · obtain ⟨P1, F1, a1, b1, c1, d1⟩ := hd.covers dir wo ho
      obtain ⟨P2, F2, a2, b2, c2, d2⟩ := hg.covers dir wo ho
      rw [hPd wo ho false] at a1; rw [hPg wo ho false] at a2
      cases a1; cases a2
      refine ⟨_, _, hpdf wo ho false, heval wo ho dir false, by nlinarith [mul_nonneg hw0 c1, mul_nonneg (sub_nonneg.mpr hwl) c2], fun h0 => ?_⟩
      by_cases ho' : opposite g wi wo = true
      · have e1 := (hFd wo ho).2 false
        have e2 := (hFg wo ho).2 false
        simp only [diffuse, ho', if_true, Option.some.injEq] at e1
        simp only [glossy, glossyEval, ho', if_true, Option.some.injEq] at e2
        rw [← e1, ← e2, add_zero]
      · exfalso
        rw [Bool.not_eq_true] at ho'
        have e1 := hPd wo ho false
        simp only [diffuse, ho', Bool.false_eq_true, if_false, Option.some.injEq] at e1
        obtain ⟨⟨q, hq, hq0⟩, _⟩ := glossy_defined Ks ax ay hax hay g wi wo h hi ho ((opposite_iff _ _ _).mp ho')
        have e2 := hPg wo ho false
        simp only [glossy, hq, Option.some.injEq] at e2
        have hpi : 0 < 1 / Real.pi := by positivity
        rw [← e1, ← e2] at h0
        rcases hw0.lt_or_eq with hlt | heq
        · nlinarith [mul_pos hlt hpi, mul_nonneg (sub_nonneg.mpr hwl) hq0.le]
        · rw [← heq] at h0; linarith
    · obtain ⟨a1, a2, a3⟩ := (hFd d hd).1
      obtain ⟨b1, b2, b3⟩ := (hFg d hd).1
      exact ⟨add_nonneg a1 b1, add_nonneg a2 b2, add_nonneg a3 b3⟩

end LM.Transport
