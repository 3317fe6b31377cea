import Verif.Props.C81_Core
import Verif.Props.C80_Nested
/-
  C81: sampling a material's direction estimates the reflected radiance.
-/
namespace LM.Solid
open MeasureTheory LM LM.Surface LM.Material LM.Light LM.MathF Set
open scoped ENNReal

theorem materialUnbiased_of {m : Mat} {comp : Nat} {g : Geom} {wi : V3 ℝ} (hd : MaterialDensity m comp g wi) (he : EstimatesAt m comp g wi) (hc : Covers m comp g wi) (hm : MeasurableEval m comp g wi) :
    MaterialUnbiased m comp g wi := by
  intro dir
  obtain ⟨F, hF, hFe⟩ := hm dir
  refine unbiased_of (hd dir) (fun i => ⟨_, measurable_value hF i, (projSA_unit g.n).mono fun d hu => by beta_reduce; rw [hFe d hu]⟩) (cube_ae.mono fun u hu => ?_) ((projSA_unit g.n).mono fun d hu => hc dir d hu)
  have hv : (⟨u.1, u.2.1, u.2.2⟩ : DirU).Valid := ⟨hu.1, hu.2.1, hu.2.2⟩
  have := he _ dir hv
  cases e : m.sampleDirection ⟨u.1, u.2.1, u.2.2⟩ g wi comp dir with
  | undef => rw [e] at this; exact this.elim
  | fail => exact ⟨by simp, fun wo C h => by cases h⟩
  | ok wo C =>
    rw [e] at this
    refine ⟨by simp, fun wo' C' h => ?_⟩
    cases h
    exact this.2

theorem measurable_add3 {α : Type} [MeasurableSpace α] {F G : α → V3 ℝ} (hF : Measurable F) (hG : Measurable G) : Measurable fun d => F d + G d :=
  measurable_mk ((measurable_x.comp hF).add (measurable_x.comp hG)) ((measurable_y.comp hF).add (measurable_y.comp hG)) ((measurable_z.comp hF).add (measurable_z.comp hG))

theorem measurable_smul3 {α : Type} [MeasurableSpace α] {r : α → ℝ} {F : α → V3 ℝ} (hr : Measurable r) (hF : Measurable F) : Measurable fun d => r d • F d :=
  measurable_mk (hr.mul (measurable_x.comp hF)) (hr.mul (measurable_y.comp hF)) (hr.mul (measurable_z.comp hF))

theorem measurable_mul3 {α : Type} [MeasurableSpace α] {F G : α → V3 ℝ} (hF : Measurable F) (hG : Measurable G) : Measurable fun d => F d * G d :=
  measurable_mk ((measurable_x.comp hF).mul (measurable_x.comp hG)) ((measurable_y.comp hF).mul (measurable_y.comp hG)) ((measurable_z.comp hF).mul (measurable_z.comp hG))

theorem measurable_dot3 {α : Type} [MeasurableSpace α] {F G : α → V3 ℝ} (hF : Measurable F) (hG : Measurable G) : Measurable fun d => V3.dot (F d) (G d) :=
  (((measurable_x.comp hF).mul (measurable_x.comp hG)).add ((measurable_y.comp hF).mul (measurable_y.comp hG))).add ((measurable_z.comp hF).mul (measurable_z.comp hG))

/-! ### Diffuse -/

theorem diffuse_covers (Kd : Geom → V3 ℝ) (comp : Nat) (g : Geom) (wi : V3 ℝ) : Covers (diffuse Kd) comp g wi ∧ MeasurableEval (diffuse Kd) comp g wi := by
  constructor
  · intro dir wo _
    refine ⟨_, _, rfl, rfl, by split <;> positivity, fun h0 => ?_⟩
    by_cases ho : opposite g wi wo = true
    · simp [ho]
    · simp [ho, Real.pi_ne_zero] at h0
  · intro dir
    classical
    refine ⟨fun d => if d ∈ {d | opposite g wi d = false} then (1 / Real.pi) • Kd g else 0, Measurable.ite (opposite_measurable g wi) measurable_const measurable_const, fun d _ => ?_⟩
    by_cases ho : opposite g wi d = true
    · simp [diffuse, ho]
    · simp [diffuse, ho]

/-- C81. Sampling a diffuse material estimates the reflected radiance. -/
theorem C81_diffuse (Kd : Geom → V3 ℝ) (comp : Nat) (g : Geom) (wi : V3 ℝ) (h : OnSurface g) (hw : V3.dot wi g.n ≠ 0) : MaterialUnbiased (diffuse Kd) comp g wi :=
  materialUnbiased_of (C80_diffuse Kd comp g wi h hw) ((C45_diffuse Kd g wi h hw).1 comp) (diffuse_covers Kd comp g wi).1 (diffuse_covers Kd comp g wi).2

/-! ### Glossy -/

theorem measurable_G1 (ax ay : ℝ) (u v n : V3 ℝ) : Measurable fun w => G1 ax ay w u v n := by
  unfold G1
  have hc := measurable_dotc n
  have hs : Measurable fun w : V3 ℝ => max Eps (safeSqrt (1 - V3.dot w n * V3.dot w n)) := measurable_const.max (measurable_safeSqrt.comp (measurable_const.sub (hc.mul hc)))
  have ha : Measurable fun w : V3 ℝ => (V3.dot w u / max Eps (safeSqrt (1 - V3.dot w n * V3.dot w n)) * ax) ^ 2 + (V3.dot w v / max Eps (safeSqrt (1 - V3.dot w n * V3.dot w n)) * ay) ^ 2 :=
    ((((measurable_dotc u).div hs).mul_const _).pow_const 2).add ((((measurable_dotc v).div hs).mul_const _).pow_const 2)
  exact Measurable.ite (hc (measurableSet_singleton 0)) measurable_const (measurable_const.div (measurable_const.add (measurable_safeSqrt.comp (measurable_const.add (ha.mul ((hs.div hc).pow_const 2))))))

theorem glossy_covers (Ks : V3 ℝ) (ax ay : ℝ) (hax : 0 < ax) (hay : 0 < ay) (comp : Nat) (g : Geom) (wi : V3 ℝ) (h : OnSurface g) (hi : V3.dot wi wi = 1) (hw : V3.dot wi g.n ≠ 0) :
    Covers (glossy Ks ax ay) comp g wi ∧ MeasurableEval (glossy Ks ax ay) comp g wi := by
  constructor
  · intro dir wo hu
    by_cases ho : opposite g wi wo = true
    · exact ⟨0, 0, by simp [glossy, glossyPdf, ho], by simp [glossy, glossyEval, ho], le_refl _, fun _ => rfl⟩
    · rw [Bool.not_eq_true] at ho
      obtain ⟨⟨p, hp, hp0⟩, f, hf⟩ := glossy_defined Ks ax ay hax hay g wi wo h hi hu ((opposite_iff _ _ _).mp ho)
      exact ⟨p, f, hp, hf, hp0.le, fun e => absurd e hp0.ne'⟩
  · intro dir
    classical
    obtain ⟨n, u, v, hb, hon, hwi, hside⟩ := twosided g wi h hw
    have hH : Measurable fun d : V3 ℝ => dirOf (wi + d) := measurable_dirOf.comp (measurable_add3 measurable_const measurable_id)
    have hFr : Measurable fun d : V3 ℝ => Ks + (1 - V3.dot d (dirOf (wi + d))) ^ 5 • (V3.all 1 - Ks) :=
      measurable_add3 measurable_const (measurable_smul3 ((measurable_const.sub (measurable_dot3 measurable_id hH)).pow_const 5) measurable_const)
    have hx : Measurable fun d : V3 ℝ => ggxD ax ay u v n (dirOf (wi + d)) * shadowG ax ay wi d u v n / (4 * V3.dot wi n * V3.dot d n) :=
      (((measurable_ggxD ax ay u v n).comp hH).mul ((measurable_G1 ax ay u v n).const_mul _)).div ((measurable_dotc n).const_mul _)
    refine ⟨fun d => if d ∈ {d | opposite g wi d = false} then
        (ggxD ax ay u v n (dirOf (wi + d)) * shadowG ax ay wi d u v n / (4 * V3.dot wi n * V3.dot d n)) • (Ks * (Ks + (1 - V3.dot d (dirOf (wi + d))) ^ 5 • (V3.all 1 - Ks))) else 0,
      Measurable.ite (opposite_measurable g wi) (measurable_smul3 hx (measurable_mul3 measurable_const hFr)) measurable_const, fun d hd => ?_⟩
    by_cases ho : opposite g wi d = true
    · simp [glossy, glossyEval, ho]
    · rw [Bool.not_eq_true] at ho
      obtain ⟨hwn, habs, hpos, _⟩ := glossyPdf_half hax hay hi hb hwi hside hd ho
      have hsn : 0 < V3.dot (wi + d) n := by rw [V3.dot_add_left]; linarith
      have hsp : 0 < V3.dot (wi + d) (wi + d) := dot_pos_of_ne (n := n) (by rw [V3.dot_comm]; exact hsn.ne')
      have hnm : Material.normalize (wi + d) = some (dirOf (wi + d)) := by
        unfold Material.normalize; rw [if_neg hsp.ne']; rfl
      have hk : 0 < V3.dot (dirOf (wi + d)) n := by
        simp only [dirOf, V3.dot_smul_left]
        have := Real.sqrt_pos.mpr hsp
        positivity
      have hnd : normalDist ax ay (dirOf (wi + d)) u v n = some (ggxD ax ay u v n (dirOf (wi + d))) := by
        unfold normalDist divF ggxD
        rw [if_neg]
        have := Real.pi_pos
        positivity
      have hden : 4 * V3.dot wi n * V3.dot d n ≠ 0 := by positivity
      show glossyEval Ks ax ay g wi d = _
      unfold glossyEval
      rw [if_neg (by rw [ho]; simp), hb]
      simp only [hnm, hnd, divF, if_neg hden]
      rw [if_pos (show d ∈ {d | opposite g wi d = false} from ho)]

/-- C81. Sampling a glossy material estimates the reflected radiance. -/
theorem C81_glossy (Ks : V3 ℝ) (ax ay : ℝ) (hax : 0 < ax) (hay : 0 < ay) (comp : Nat) (g : Geom) (wi : V3 ℝ) (h : OnSurface g) (hi : V3.dot wi wi = 1) (hw : V3.dot wi g.n ≠ 0) :
    MaterialUnbiased (glossy Ks ax ay) comp g wi :=
  materialUnbiased_of (C80_glossy Ks ax ay hax hay comp g wi h hi hw) ((C45_glossy Ks ax ay hax hay g wi h hi hw).1 comp) (glossy_covers Ks ax ay hax hay comp g wi h hi hw).1 (glossy_covers Ks ax ay hax hay comp g wi h hi hw).2

/-! ### Mixtures -/

/-- C81. Every component of a roulette mixture estimates its share of the reflected radiance, if its material is good. -/
theorem C81_mixture_rr (es : List Entry) (g : Geom) (wi : V3 ℝ) (hnn : ∀ e ∈ es, 0 ≤ e.2) (hs : 0 < (es.map (·.2)).sum) (comp : Nat) (e : Entry) (he : es[comp]? = some e)
    (hd : MaterialDensity e.1 0 g wi) (hest : EstimatesAt e.1 0 g wi) (hc : Covers e.1 0 g wi) (hm : MeasurableEval e.1 0 g wi) : MaterialUnbiased (mixtureRR es) comp g wi := by
  refine materialUnbiased_of (C80_mixture_rr es g wi comp e he hd) ((C45_mixture_rr es g wi hnn hs).2 comp e he hest) ?_ ?_
  · intro dir wo hu
    obtain ⟨P, F, h1, h2, h3, h4⟩ := hc dir wo hu
    exact ⟨P, e.2 • F, by simp [mixtureRR, he, h1], by simp [mixtureRR, he, h2], h3, fun h => by rw [h4 h, smul_zero]⟩
  · intro dir
    obtain ⟨F, hF, hFe⟩ := hm dir
    exact ⟨fun d => e.2 • F d, measurable_smul3 measurable_const hF, fun d hd => by simp [mixtureRR, he, hFe d hd]⟩

/-- C81. The mixture of OBJ models (the component that is not the mask) estimates the reflected radiance of its diffuse and glossy parts. -/
theorem C81_obj_mixture (Kd : Geom → V3 ℝ) (Ks : V3 ℝ) (ax ay : ℝ) (hax : 0 < ax) (hay : 0 < ay) (alpha : Geom → ℝ) (g : Geom) (wi : V3 ℝ) (h : OnSurface g) (hi : V3.dot wi wi = 1) (hw : V3.dot wi g.n ≠ 0)
    (hKd : 0 ≤ compMax (Kd g)) (hKs : 0 ≤ compMax Ks) : MaterialUnbiased (objMixture (diffuse Kd) (glossy Ks ax ay) alpha) 0 g wi := by
  obtain ⟨w, hw1, hw0, hwl⟩ := diffuseProb_spec (diffuse Kd) (glossy Ks ax ay) g hKd hKs
  refine materialUnbiased_of (C80_obj_mixture Kd Ks ax ay hax hay alpha g wi h hi hw hKd hKs) (C45_obj_mixture_partial Kd Ks ax ay hax hay alpha g wi h hi hw hKd hKs).1 ?_ ?_
  · intro dir wo hu
    by_cases ho : opposite g wi wo = true
    · refine ⟨0, 0, ?_, ?_, le_refl _, fun _ => rfl⟩
      · simp only [objMixture, objPdf, hw1]; simp [diffuse, glossy, glossyPdf, ho]
      · simp [objMixture, objEval, diffuse, glossy, glossyEval, ho]
    · rw [Bool.not_eq_true] at ho
      obtain ⟨⟨p, hp, hp0⟩, f, hf⟩ := glossy_defined Ks ax ay hax hay g wi wo h hi hu ((opposite_iff _ _ _).mp ho)
      have hpi := Real.pi_pos
      have hpos : 0 < w * (1 / Real.pi) + (1 - w) * p := by
        rcases hw0.lt_or_eq with h0 | h0
        · have : 0 < w * (1 / Real.pi) := by positivity
          have : 0 ≤ (1 - w) * p := mul_nonneg (by linarith) hp0.le
          linarith
        · rw [← h0]; simpa using hp0
      refine ⟨w * (1 / Real.pi) + (1 - w) * p, alpha g • ((1 / Real.pi) • Kd g + f), ?_, ?_, hpos.le, fun e => absurd e hpos.ne'⟩
      · simp only [objMixture, objPdf, hw1]; simp [diffuse, glossy, hp, ho]
      · simp [objMixture, objEval, diffuse, glossy, hf, ho]
  · intro dir
    obtain ⟨F, hF, hFe⟩ := (diffuse_covers Kd 0 g wi).2 dir
    obtain ⟨G, hG, hGe⟩ := (glossy_covers Ks ax ay hax hay 0 g wi h hi hw).2 dir
    exact ⟨fun d => alpha g • (F d + G d), measurable_smul3 measurable_const (measurable_add3 hF hG), fun d hd => by simp [objMixture, objEval, hFe d hd, hGe d hd]⟩

theorem measurable_sum3 {α ι : Type} [MeasurableSpace α] (l : List ι) (F : ι → α → V3 ℝ) (h : ∀ e ∈ l, Measurable (F e)) : Measurable fun d => (l.map fun e => F e d).sum := by
  induction l with
  | nil => exact measurable_const
  | cons e l ih => simp only [List.map_cons, List.sum_cons]; exact measurable_add3 (h e (by simp)) (ih fun x hx => h x (by simp [hx]))

/-- C81. A group of the marginalized mixture estimates its share of the reflected radiance, if its materials are good and do not themselves use the random number that selects a component. Missing: mixtures of mixtures (C80_negation_nested_mixture). -/
theorem C81_mixture_marginalized_partial (es : List Entry) (g : Geom) (wi : V3 ℝ) (hnn : ∀ e ∈ es, 0 ≤ e.2) (hs : 0 < (es.map (·.2)).sum) (comp : Nat) (grp : List Entry)
    (hg : (groups es)[comp]? = some grp) (hpos : 0 < (grp.map (·.2)).sum) (hest : ∀ e ∈ grp, EstimatesAt e.1 0 g wi) (hfree : ∀ e ∈ grp, FreeDensity e.1 0 g wi)
    (hc : ∀ e ∈ grp, Covers e.1 0 g wi) (hm : ∀ e ∈ grp, MeasurableEval e.1 0 g wi) : MaterialUnbiased (mixtureMarg es) comp g wi := by
  have hdef : ∀ e ∈ grp, EstimatesAt e.1 0 g wi ∧ Defined e.1 0 g wi := fun e he => ⟨hest e he, fun wo hu => by
    refine ⟨?_, fun dir => ?_⟩
    · obtain ⟨P, F, h1, h2, h3, h4⟩ := hc e he .LE wo hu; exact ⟨P, h1, h3⟩
    · obtain ⟨P, F, h1, h2, h3, h4⟩ := hc e he dir wo hu; exact ⟨F, h2⟩⟩
  have hgnn : ∀ e ∈ grp, 0 ≤ e.2 := by
    have hm := List.mem_of_getElem? hg
    rw [C45_groups] at hm
    intro e he
    rcases List.mem_cons.mp hm with rfl | hm
    · exact hnn e (List.mem_of_mem_filter he)
    · obtain ⟨e', he', rfl⟩ := List.mem_map.mp hm
      rw [List.mem_singleton] at he
      subst he
      exact hnn e (List.mem_of_mem_filter he')
  refine materialUnbiased_of (C80_mixture_marginalized_partial es g wi hnn hs comp grp hg hpos hdef hfree) ((C45_mixture_marginalized es g wi hnn hs).2 comp grp hg hpos hdef) ?_ ?_
  · intro dir wo hu
    classical
    choose! P F hP hF h0 hcov using fun e he => hc e he dir wo hu
    obtain ⟨c, hcd, hpmf, _⟩ := Dist.C28_pmf (grp.map (·.2)) hpos.ne'
    rw [← distOf_eq] at hcd
    have hgp : groupPdf grp g wi wo false = some (∑ i ∈ Finset.range grp.length, (match grp[i]? with | some e => Dist.pmf c i * P e | none => 0)) := by
      unfold groupPdf
      rw [hcd]
      simp only
      rw [mapM_eq_map _ _ (fun e : Entry × Nat => Dist.pmf c e.2 * P e.1) (fun e he => by rw [hP e.1 (List.fst_mem_of_mem_zipIdx he)]; rfl)]
      rw [Option.map_some, zipIdx_sum]
      congr 1
      refine Finset.sum_congr rfl fun i _ => ?_
      rw [Nat.zero_add]
      cases grp[i]? <;> rfl
    have hge : groupEval grp g wi wo dir false = some (grp.map fun e => e.2 • F e).sum := by
      unfold groupEval
      rw [mapM_eq_map grp _ (fun e => e.2 • F e) fun e he => by rw [hF e he]; rfl]
      rfl
    have hpm : ∀ i e, grp[i]? = some e → Dist.pmf c (i : ℕ) = e.2 / (grp.map (·.2)).sum := by
      intro i e he
      have hi : i < grp.length := (List.getElem?_eq_some_iff.mp he).1
      rw [hpmf i (by simpa using hi)]
      have : grp[i] = e := (List.getElem?_eq_some_iff.mp he).2
      rw [List.getElem_map, this]
    have hnt : ∀ i ∈ Finset.range grp.length, 0 ≤ (match grp[i]? with | some e => Dist.pmf c (i : ℕ) * P e | none => 0) := by
      intro i _
      cases he : grp[i]? with
      | none => exact le_refl _
      | some e =>
        have hem := List.mem_of_getElem? he
        simp only [hpm i e he]
        exact mul_nonneg (div_nonneg (hgnn e hem) hpos.le) (h0 e hem)
    refine ⟨_, _, by simp only [mixtureMarg, hg, Option.bind_some]; exact hgp, by simp only [mixtureMarg, hg, Option.bind_some]; exact hge, Finset.sum_nonneg hnt, fun hz => ?_⟩
    rw [Finset.sum_eq_zero_iff_of_nonneg hnt] at hz
    refine List.sum_eq_zero fun x hx => ?_
    obtain ⟨e, he, rfl⟩ := List.mem_map.mp hx
    obtain ⟨i, hi, hie⟩ := List.getElem_of_mem he
    have hi' : grp[i]? = some e := by rw [List.getElem?_eq_getElem hi, hie]
    have := hz i (Finset.mem_range.mpr hi)
    simp only [hi', hpm i e hi'] at this
    rcases mul_eq_zero.mp this with h | h
    · rcases div_eq_zero_iff.mp h with h | h
      · rw [h, zero_smul]
      · exact absurd h hpos.ne'
    · rw [hcov e he h, smul_zero]
  · intro dir
    classical
    choose! F hF hFe using fun e he => hm e he dir
    refine ⟨fun d => (grp.map fun e => e.2 • F e d).sum, measurable_sum3 grp _ fun e he => measurable_smul3 measurable_const (hF e he), fun d hd => ?_⟩
    simp only [mixtureMarg, hg, Option.bind_some, groupEval]
    rw [mapM_eq_map grp _ (fun e => e.2 • F e d) fun e he => by rw [hFe e he d hd]; rfl]
    rfl

example : MaterialUnbiased (diffuse fun _ => ⟨1, 1, 1⟩) 0 exGeom ⟨3/5, 0, 4/5⟩ := C81_diffuse _ _ _ _ (by simp [OnSurface, MathF.Orthonormal, exGeom, V3.dot, V3.cross]) (by simp [V3.dot, exGeom])

example : MaterialUnbiased (glossy ⟨1, 1, 1⟩ (1 / 2) (1 / 4)) 0 exGeom ⟨3/5, 0, 4/5⟩ :=
  C81_glossy _ _ _ (by norm_num) (by norm_num) _ _ _ (by simp [OnSurface, MathF.Orthonormal, exGeom, V3.dot, V3.cross]) (by simp [V3.dot]; norm_num) (by simp [V3.dot, exGeom])

end LM.Solid
