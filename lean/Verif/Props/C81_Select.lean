import Verif.Props.C81_Material
/-
  C81: selecting a component and dividing by its probability sums over the components.
-/
namespace LM.Solid
open MeasureTheory LM LM.Surface LM.Material LM.Light LM.MathF Set
open scoped ENNReal

/-- What a selected component contributes: its weight times the value of the component. -/
noncomputable def compWorth (F : ℕ → ℝ≥0∞) : Option (ℕ × ℝ) → ℝ≥0∞
  | some (c, w) => ENNReal.ofReal w * F c
  | none => ⊤

/-- With one uniform random number, the expected contribution is the sum of the values of all components below N that can be selected. -/
def SelectSum (m : Mat) (g : Geom) (wi : V3 ℝ) (N : ℕ) : Prop :=
  ∃ p : ℕ → ℝ, (∀ c < N, m.pdfComponent c g wi = some (p c)) ∧ ∑ c ∈ Finset.range N, p c = 1 ∧ (∀ c < N, 0 ≤ p c) ∧
    ∀ F : ℕ → ℝ≥0∞, ∫⁻ u, compWorth F (m.sampleComponent u g wi) ∂uniform1 = ∑ c ∈ (Finset.range N).filter (fun c => p c ≠ 0), F c

theorem uniform1_ae : ∀ᵐ u : ℝ ∂uniform1, 0 ≤ u ∧ u < 1 := by
  unfold uniform1
  exact (ae_restrict_mem measurableSet_Ico).mono fun u hu => hu

theorem select_expect {N : ℕ} {I : ℕ → Set ℝ} {p : ℕ → ℝ} {sel : ℝ → Option (ℕ × ℝ)} (hI : ∀ i < N, MeasurableSet (I i) ∧ uniform1 (I i) = ENNReal.ofReal (p i))
    (hdis : ∀ i < N, ∀ j < N, i ≠ j → Disjoint (I i) (I j)) (hp : ∀ i < N, 0 ≤ p i) (hcov : ∀ u, 0 ≤ u → u < 1 → ∃ i < N, u ∈ I i ∧ sel u = some (i, 1 / p i)) (F : ℕ → ℝ≥0∞) :
    ∫⁻ u, compWorth F (sel u) ∂uniform1 = ∑ c ∈ (Finset.range N).filter (fun c => p c ≠ 0), F c := by
  classical
  have e : ∀ᵐ u ∂uniform1, compWorth F (sel u) = ∑ i ∈ Finset.range N, (I i).indicator (fun _ => ENNReal.ofReal (1 / p i) * F i) u := by
    refine uniform1_ae.mono fun u hu => ?_
    obtain ⟨i, hi, hui, hs⟩ := hcov u hu.1 hu.2
    rw [hs, Finset.sum_eq_single i]
    · rw [indicator_of_mem hui]; rfl
    · intro j hj hji
      rw [indicator_of_notMem]
      intro hc
      exact (Set.disjoint_left.mp (hdis j (Finset.mem_range.mp hj) i hi hji)) hc hui
    · intro h; exact absurd (Finset.mem_range.mpr hi) h
  rw [lintegral_congr_ae e, lintegral_finset_sum' _ fun i hi => (measurable_const.indicator (hI i (Finset.mem_range.mp hi)).1).aemeasurable, Finset.sum_filter]
  refine Finset.sum_congr rfl fun i hi => ?_
  have hi' := Finset.mem_range.mp hi
  rw [lintegral_indicator (hI i hi').1, setLIntegral_const, (hI i hi').2]
  by_cases h0 : p i = 0
  · rw [if_neg (by simpa using h0), h0]; simp
  · rw [if_pos h0]
    have hpos : 0 < p i := lt_of_le_of_ne (hp i hi') (Ne.symm h0)
    rw [mul_right_comm, ← ENNReal.ofReal_mul (by positivity), one_div, inv_mul_cancel₀ h0, ENNReal.ofReal_one, one_mul]

theorem dist_select (ws : List ℝ) (hnn : ∀ w ∈ ws, 0 ≤ w) (hs : 0 < ws.sum) : ∃ c, distOf ws = some c ∧ ∑ i ∈ Finset.range ws.length, Dist.pmf c i = 1 ∧ (∀ i < ws.length, 0 ≤ Dist.pmf c i) ∧
    ∀ F : ℕ → ℝ≥0∞, ∫⁻ u, compWorth F (selectComp (distOf ws) u) ∂uniform1 = ∑ i ∈ (Finset.range ws.length).filter (fun i => Dist.pmf c (i : ℕ) ≠ 0), F i := by
  obtain ⟨c, hc, hpm, I, hI, hdis, hsel, hex⟩ := sample_interval ws hnn hs
  obtain ⟨c', hc', _, h3⟩ := select_ok ws hnn hs
  rw [hc] at hc'; cases hc'
  obtain ⟨c', hc', _, hsum⟩ := Dist.C28_pmf_sum ws hnn hs
  rw [← distOf_eq, hc] at hc'; cases hc'
  refine ⟨c, hc, hsum, fun i _ => hpm i, fun F => select_expect (p := fun i => Dist.pmf c (i : ℕ)) hI hdis (fun i _ => hpm i) (fun u h0 h1 => ?_) F⟩
  obtain ⟨i, hi, e1, _, e2⟩ := h3 u h0 h1
  exact ⟨i, hi, (hsel u h0 h1 i hi).mp e1, e2⟩

/-- C81. The components of a roulette mixture. -/
theorem C81_select_rr (es : List Entry) (g : Geom) (wi : V3 ℝ) (hnn : ∀ e ∈ es, 0 ≤ e.2) (hs : 0 < (es.map (·.2)).sum) : SelectSum (mixtureRR es) g wi es.length := by
  obtain ⟨c, hc, h1, h2, h3⟩ := dist_select (es.map (·.2)) (by simpa using fun b a hab => hnn (a, b) hab) hs
  rw [List.length_map] at h1 h2 h3
  exact ⟨fun i => Dist.pmf c (i : ℕ), fun i _ => by simp [mixtureRR, hc], h1, h2, h3⟩

/-- C81. The groups of a marginalized mixture. -/
theorem C81_select_marginalized (es : List Entry) (g : Geom) (wi : V3 ℝ) (hnn : ∀ e ∈ es, 0 ≤ e.2) (hs : 0 < (es.map (·.2)).sum) : SelectSum (mixtureMarg es) g wi (groups es).length := by
  have hgr : ∀ l ∈ groups es, ∀ e ∈ l, 0 ≤ e.2 := by
    intro l hm e he
    rw [C45_groups] at hm
    rcases List.mem_cons.mp hm with rfl | hm
    · exact hnn e (List.mem_of_mem_filter he)
    · obtain ⟨e', he', rfl⟩ := List.mem_map.mp hm
      rw [List.mem_singleton] at he
      subst he
      exact hnn e (List.mem_of_mem_filter he')
  have hnn' : ∀ w ∈ (groups es).map (fun gr => (gr.map (·.2)).sum), 0 ≤ w := by
    intro w hw
    obtain ⟨gr, hg, rfl⟩ := List.mem_map.mp hw
    refine List.sum_nonneg fun x hx => ?_
    obtain ⟨e, he, rfl⟩ := List.mem_map.mp hx
    exact hgr gr hg e he
  have hs' : 0 < ((groups es).map (fun gr => (gr.map (·.2)).sum)).sum := by
    have : ((groups es).map (fun gr => (gr.map (·.2)).sum)).sum = (es.map (·.2)).sum := by
      rw [C45_groups, List.map_cons, List.sum_cons, List.map_map]
      clear hs hnn' hgr hnn
      induction es with
      | nil => simp
      | cons e es ih =>
        rw [List.map_cons, List.sum_cons, ← ih]
        by_cases h : e.1.isSpecular 0 = some true
        · simp [h]; ring
        · simp [h]; ring
    rw [this]; exact hs
  obtain ⟨c, hc, h1, h2, h3⟩ := dist_select _ hnn' hs'
  rw [List.length_map] at h1 h2 h3
  exact ⟨fun i => Dist.pmf c (i : ℕ), fun i _ => by simp [mixtureMarg, hc], h1, h2, h3⟩

/-- Two components: u < a selects the first. -/
theorem two_select {a : ℝ} (h0 : 0 ≤ a) (h1 : a ≤ 1) {sel : ℝ → Option (ℕ × ℝ)} (hsel : ∀ u, 0 ≤ u → u < 1 → sel u = if u < a then some (0, 1 / a) else some (1, 1 / (1 - a))) (F : ℕ → ℝ≥0∞) :
    ∫⁻ u, compWorth F (sel u) ∂uniform1 = ∑ c ∈ (Finset.range 2).filter (fun c => (if c = 0 then a else 1 - a) ≠ 0), F c := by
  refine select_expect (I := fun i => if i = 0 then Iio a else Ici a) (p := fun c => if c = 0 then a else 1 - a) ?_ ?_ ?_ ?_ F
  · intro i hi
    obtain ⟨e1, e2⟩ := uniform1_lt h0 h1
    by_cases h : i = 0
    · simp only [h, if_true]; exact ⟨measurableSet_Iio, e1⟩
    · simp only [h, if_false]; exact ⟨measurableSet_Ici, e2⟩
  · intro i hi j hj hij
    have : Disjoint (Iio a) (Ici a) := Set.disjoint_left.mpr fun x hx hy => absurd (mem_Iio.mp hx) (not_lt.mpr hy)
    by_cases h : i = 0
    · have hj' : j ≠ 0 := fun e => hij (by rw [h, e])
      simp only [h, if_true, hj', if_false]; exact this
    · have hj' : j = 0 := by omega
      simp only [h, if_false, hj', if_true]; exact this.symm
  · intro i hi
    by_cases h : i = 0
    · simp only [h, if_true]; exact h0
    · simp only [h, if_false]; linarith
  · intro u hu0 hu1
    rw [hsel u hu0 hu1]
    by_cases h : u < a
    · exact ⟨0, by norm_num, by simpa using h, by simp [h]⟩
    · exact ⟨1, by norm_num, by simpa using h, by simp [h]⟩

/-- C81. Reflection and refraction of glass. -/
theorem C81_select_glass (Ni : ℝ) (hNi : 0 < Ni) (g : Geom) (wi : V3 ℝ) (h : OnSurface g) (hi : V3.dot wi wi = 1) (hw : V3.dot wi g.n ≠ 0) : SelectSum (glass Ni) g wi 2 := by
  obtain ⟨h0, h1⟩ := C45_fresnel_range Ni hNi g wi h hi hw
  refine ⟨fun c => if c = 0 then glassFr Ni g wi else 1 - glassFr Ni g wi, fun c _ => rfl, by simp [Finset.sum_range_succ], fun c _ => by dsimp only; split <;> linarith,
    fun F => two_select h0 h1 (fun u hu0 hu1 => ?_) F⟩
  simp only [glass]
  by_cases hu : u < glassFr Ni g wi
  · have : glassFr Ni g wi ≠ 0 := by linarith
    simp [hu, divF, this]
  · have : 1 - glassFr Ni g wi ≠ 0 := by linarith
    simp [hu, divF, this]

/-- C81. The mask of OBJ materials: with probability alpha the surface, else straight through. -/
theorem C81_select_obj (d gl : Mat) (alpha : Geom → ℝ) (g : Geom) (wi : V3 ℝ) (h0 : 0 ≤ alpha g) (h1 : alpha g ≤ 1) : SelectSum (objMixture d gl alpha) g wi 2 := by
  refine ⟨fun c => if c = 0 then alpha g else 1 - alpha g, fun c _ => rfl, by simp [Finset.sum_range_succ], fun c _ => by dsimp only; split <;> linarith, fun F => two_select h0 h1 (fun u hu0 hu1 => ?_) F⟩
  simp only [objMixture]
  by_cases h : u < alpha g
  · rw [if_pos h, if_pos h]
    have : alpha g ≠ 0 := by linarith
    simp [divF, this]
  · rw [if_neg h, if_neg h]
    have : 1 - alpha g ≠ 0 := by linarith
    simp [divF, this]

theorem single_select {sel : ℝ → Option (ℕ × ℝ)} (h : ∀ u, sel u = some (0, 1)) (F : ℕ → ℝ≥0∞) : ∫⁻ u, compWorth F (sel u) ∂uniform1 = F 0 := by
  simp only [h, compWorth, ENNReal.ofReal_one, one_mul, lintegral_const]
  unfold uniform1
  simp

/-- C81. Materials of one component. -/
theorem C81_select_single (Kd : Geom → V3 ℝ) (Ks : V3 ℝ) (ax ay : ℝ) (g : Geom) (wi : V3 ℝ) :
    SelectSum (diffuse Kd) g wi 1 ∧ SelectSum (glossy Ks ax ay) g wi 1 ∧ SelectSum mirror g wi 1 ∧ SelectSum mask g wi 1 := by
  refine ⟨?_, ?_, ?_, ?_⟩ <;>
  exact ⟨fun _ => 1, fun c _ => rfl, by simp, fun _ _ => zero_le_one, fun F => (single_select (fun _ => rfl) F).trans (by simp)⟩

/-- C81. The estimate of the reflected radiance: a component selected with one random number, a direction sampled with three more; in expectation the reflected radiance of all components that can be selected. -/
theorem C81_reflected (m : Mat) (g : Geom) (wi : V3 ℝ) (N : ℕ) (hsel : SelectSum m g wi N) (hm : ∀ c < N, m.pdfComponent c g wi ≠ some 0 → MaterialUnbiased m c g wi) (dir : TransDir) (i : Fin 3) (L : V3 ℝ → ℝ≥0∞)
    (hL : Measurable L) :
    ∫⁻ uc, compWorth (fun c => ∫⁻ u, worth i L (m.sampleDirection ⟨u.1, u.2.1, u.2.2⟩ g wi c dir) ∂uniform3) (m.sampleComponent uc g wi) ∂uniform1 =
      ∑ c ∈ (Finset.range N).filter (fun c => m.pdfComponent c g wi ≠ some 0), ∫⁻ d, value i (m.eval g wi d c dir false) * L d ∂projSolidAngle g.n := by
  obtain ⟨p, hp, _, _, hF⟩ := hsel
  rw [hF]
  have hfil : (Finset.range N).filter (fun c => p c ≠ 0) = (Finset.range N).filter (fun c => m.pdfComponent c g wi ≠ some 0) := by
    refine Finset.filter_congr fun c hc => ?_
    rw [hp c (Finset.mem_range.mp hc)]
    simp
  rw [hfil]
  refine Finset.sum_congr rfl fun c hc => ?_
  rw [Finset.mem_filter] at hc
  exact hm c (Finset.mem_range.mp hc.1) hc.2 dir i L hL

/-- A diffuse material with albedo 1/2 under radiance 1: the estimate of the reflected radiance has the expected value of the integral. -/
example (L : V3 ℝ → ℝ≥0∞) (hL : Measurable L) := C81_reflected (diffuse fun _ => ⟨1/2, 1/2, 1/2⟩) exGeom ⟨3/5, 0, 4/5⟩ 1 (C81_select_single _ 0 0 0 exGeom _).1
  (fun c _ _ => C81_diffuse _ c _ _ (by simp [OnSurface, MathF.Orthonormal, exGeom, V3.dot, V3.cross]) (by simp [V3.dot, exGeom])) .EL 0 L hL

end LM.Solid
