import Verif.Props.C82_Blend
import Verif.Props.C76_Reciprocity
import Verif.Props.C86_Nearest
import Verif.Spec.Parts
/-
  C82: what diffuse and glossy materials and mixtures of them evaluate to, as functions of both directions.
-/
namespace LM.Transport
open MeasureTheory LM LM.Surface LM.Material LM.Light LM.MathF LM.Path LM.Render LM.Solid Set
open scoped ENNReal

/-- The glossy BSDF for directions on the side of n. -/
noncomputable def glossE (Ks : V3 ℝ) (ax ay : ℝ) (u v n wi wo : V3 ℝ) : V3 ℝ :=
  (ggxD ax ay u v n (dirOf (wi + wo)) * shadowG ax ay wi wo u v n / (4 * V3.dot wi n * V3.dot wo n)) • (Ks * (Ks + (1 - V3.dot wo (dirOf (wi + wo))) ^ 5 • (V3.all 1 - Ks)))

/-- The density for directions on the side of n. -/
noncomputable def glossD (ax ay : ℝ) (u v n wi wo : V3 ℝ) : ℝ :=
  ggxD ax ay u v n (dirOf (wi + wo)) * V3.dot (dirOf (wi + wo)) n / (4 * V3.dot (dirOf (wi + wo)) wi * V3.dot wo n)

noncomputable def glossF (Ks : V3 ℝ) (ax ay : ℝ) (g : Geom) (wi wo : V3 ℝ) : V3 ℝ :=
  if V3.dot wi g.n * V3.dot wo g.n ≤ 0 then 0 else if 0 < V3.dot wi g.n then glossE Ks ax ay g.u g.v g.n wi wo else glossE Ks ax ay g.u (-g.v) (-g.n) wi wo

noncomputable def glossP (ax ay : ℝ) (g : Geom) (wi wo : V3 ℝ) : ℝ :=
  if V3.dot wi g.n * V3.dot wo g.n ≤ 0 then 0 else if 0 < V3.dot wi g.n then glossD ax ay g.u g.v g.n wi wo else glossD ax ay g.u (-g.v) (-g.n) wi wo

theorem glossF_side {Ks : V3 ℝ} {ax ay : ℝ} {g : Geom} {wi wo n u v : V3 ℝ} (hside : (n = g.n ∧ u = g.u ∧ v = g.v ∧ 0 < V3.dot wi g.n) ∨ (n = -g.n ∧ u = g.u ∧ v = -g.v ∧ V3.dot wi g.n < 0))
    (ho : 0 < V3.dot wi g.n * V3.dot wo g.n) : glossF Ks ax ay g wi wo = glossE Ks ax ay u v n wi wo ∧ glossP ax ay g wi wo = glossD ax ay u v n wi wo := by
  unfold glossF glossP
  rw [if_neg (not_le.mpr ho), if_neg (not_le.mpr ho)]
  rcases hside with ⟨rfl, rfl, rfl, h⟩ | ⟨rfl, rfl, rfl, h⟩
  · rw [if_pos h, if_pos h]; exact ⟨rfl, rfl⟩
  · rw [if_neg (not_lt.mpr h.le), if_neg (not_lt.mpr h.le)]; exact ⟨rfl, rfl⟩

theorem glossy_eval (Ks : V3 ℝ) {ax ay : ℝ} (hax : 0 < ax) (hay : 0 < ay) {g : Geom} {wi wo : V3 ℝ} (h : OnSurface g) (hi : V3.dot wi wi = 1) (hd : V3.dot wo wo = 1) (hw : V3.dot wi g.n ≠ 0) :
    glossyEval Ks ax ay g wi wo = some (glossF Ks ax ay g wi wo) ∧ glossyPdf ax ay g wi wo = some (glossP ax ay g wi wo) := by
  obtain ⟨n, u, v, hb, hon, hwi, hside⟩ := twosided g wi h hw
  cases ho : opposite g wi wo with
  | true =>
    have hle : V3.dot wi g.n * V3.dot wo g.n ≤ 0 := by unfold opposite at ho; exact of_decide_eq_true ho
    simp [glossyEval, glossyPdf, glossF, glossP, ho, hle]
  | false =>
    have hs := (opposite_iff _ _ _).mp ho
    obtain ⟨hwn, habs, hpos, hpd⟩ := glossyPdf_half hax hay hi hb hwi hside hd ho
    rw [(glossF_side hside hs).1, (glossF_side (Ks := Ks) hside hs).2, hpd]
    refine ⟨?_, rfl⟩
    have hsn : 0 < V3.dot (wi + wo) n := by rw [V3.dot_add_left]; linarith
    have hsp : 0 < V3.dot (wi + wo) (wi + wo) := dot_pos_of_ne (n := n) (by rw [V3.dot_comm]; exact hsn.ne')
    have hnm : Material.normalize (wi + wo) = some (dirOf (wi + wo)) := by
      unfold Material.normalize; rw [if_neg hsp.ne']; rfl
    have hk : 0 < V3.dot (dirOf (wi + wo)) n := by
      simp only [dirOf, V3.dot_smul_left]
      have := Real.sqrt_pos.mpr hsp
      positivity
    have hnd : normalDist ax ay (dirOf (wi + wo)) u v n = some (ggxD ax ay u v n (dirOf (wi + wo))) := by
      unfold normalDist divF ggxD
      rw [if_neg]
      have := Real.pi_pos
      positivity
    have hden : 4 * V3.dot wi n * V3.dot wo n ≠ 0 := by positivity
    unfold glossyEval
    rw [if_neg (by rw [ho]; simp), hb]
    simp only [hnm, hnd, divF, if_neg hden]
    rfl

theorem measurable_half : Measurable fun q : V3 ℝ × V3 ℝ => dirOf (q.1 + q.2) := measurable_dirOf.comp (measurable_add3 measurable_fst measurable_snd)

theorem measurable_glossE (Ks : V3 ℝ) (ax ay : ℝ) (u v n : V3 ℝ) : Measurable fun q : V3 ℝ × V3 ℝ => glossE Ks ax ay u v n q.1 q.2 := by
  unfold glossE shadowG
  have h1 : Measurable fun q : V3 ℝ × V3 ℝ => V3.dot q.1 n := measurable_dot3 measurable_fst measurable_const
  have h2 : Measurable fun q : V3 ℝ × V3 ℝ => V3.dot q.2 n := measurable_dot3 measurable_snd measurable_const
  refine measurable_smul3 ?_ (measurable_mul3 measurable_const (measurable_add3 measurable_const (measurable_smul3 ((measurable_const.sub (measurable_dot3 measurable_snd measurable_half)).pow_const 5) measurable_const)))
  exact (((measurable_ggxD ax ay u v n).comp measurable_half).mul (((measurable_G1 ax ay u v n).comp measurable_fst).mul ((measurable_G1 ax ay u v n).comp measurable_snd))).div ((measurable_const.mul h1).mul h2)

theorem measurable_glossD (ax ay : ℝ) (u v n : V3 ℝ) : Measurable fun q : V3 ℝ × V3 ℝ => glossD ax ay u v n q.1 q.2 := by
  unfold glossD
  exact (((measurable_ggxD ax ay u v n).comp measurable_half).mul (measurable_dot3 measurable_half measurable_const)).div ((measurable_const.mul (measurable_dot3 measurable_half measurable_fst)).mul (measurable_dot3 measurable_snd measurable_const))

theorem measurable_glossF (Ks : V3 ℝ) (ax ay : ℝ) (g : Geom) : Measurable (fun q : V3 ℝ × V3 ℝ => glossF Ks ax ay g q.1 q.2) ∧ Measurable fun q : V3 ℝ × V3 ℝ => glossP ax ay g q.1 q.2 := by
  have h1 : Measurable fun q : V3 ℝ × V3 ℝ => V3.dot q.1 g.n := measurable_dot3 measurable_fst measurable_const
  have h2 : Measurable fun q : V3 ℝ × V3 ℝ => V3.dot q.2 g.n := measurable_dot3 measurable_snd measurable_const
  have hs : MeasurableSet {q : V3 ℝ × V3 ℝ | V3.dot q.1 g.n * V3.dot q.2 g.n ≤ 0} := measurableSet_le (h1.mul h2) measurable_const
  have hp : MeasurableSet {q : V3 ℝ × V3 ℝ | 0 < V3.dot q.1 g.n} := measurableSet_lt measurable_const h1
  exact ⟨Measurable.ite hs measurable_const (Measurable.ite hp (measurable_glossE _ _ _ _ _ _) (measurable_glossE _ _ _ _ _ _)), Measurable.ite hs measurable_const (Measurable.ite hp (measurable_glossD _ _ _ _ _) (measurable_glossD _ _ _ _ _))⟩

/-! ### Mixtures without specular materials -/

/-- A roulette mixture of materials with BSDFs and positive weights: all entries are components, with probabilities proportional to the weights. -/
theorem rr_range (es : List Entry) (g : Geom) (wi : V3 ℝ) (hpos : ∀ e ∈ es, 0 < e.2) (hne : es ≠ []) (he : ∀ e ∈ es, MaterialDensity e.1 0 g wi ∧ Smooth e.1 0 g wi ∧ MeasurableEval e.1 0 g wi) :
    MatOk (mixtureRR es) g wi (Finset.range es.length) ∧ (∀ c ∈ Finset.range es.length, Smooth (mixtureRR es) c g wi ∧ MaterialDensity (mixtureRR es) c g wi) ∧
      (∀ c (hc : c < es.length), (mixtureRR es).pdfComponent c g wi = some (es[c].2 / (es.map (·.2)).sum)) ∧
      ∀ u, 0 ≤ u → u < 1 → ∀ c w, (mixtureRR es).sampleComponent u g wi = some (c, w) → ∃ hc : c < es.length, w * (es[c].2 / (es.map (·.2)).sum) = 1 := by
  classical
  have hnn : ∀ e ∈ es, 0 ≤ e.2 := fun e h => (hpos e h).le
  have hs : 0 < (es.map (·.2)).sum := List.sum_pos _ (fun x hx => by obtain ⟨e, h, rfl⟩ := List.mem_map.mp hx; exact hpos e h) (by simpa using hne)
  obtain ⟨d, hd, hd1, -⟩ := Dist.C28_pmf (es.map (·.2)) hs.ne'
  rw [← distOf_eq] at hd
  have hpdf : ∀ c (hc : c < es.length), (mixtureRR es).pdfComponent c g wi = some (es[c].2 / (es.map (·.2)).sum) := fun c hc => by
    have := hd1 c (by simpa using hc)
    simp only [List.getElem_map] at this
    simp only [mixtureRR, hd, Option.map_some, this]
  obtain ⟨C, hC⟩ := rr_ok es g wi hnn hs fun e h => .inl (he e h)
  obtain ⟨p, hp, _, _, hsum⟩ := C81_select_rr es g wi hnn hs
  have hCe : C = Finset.range es.length := by
    ext c
    have e := (hC.sum fun x => if x = c then 1 else 0).symm.trans (hsum fun x => if x = c then 1 else 0)
    rw [Finset.sum_ite_eq', Finset.sum_ite_eq'] at e
    have hiff : c ∈ C ↔ c ∈ (Finset.range es.length).filter fun c => p c ≠ 0 := by
      constructor <;> intro h <;> by_contra h' <;> rw [if_pos h, if_neg h'] at e <;> simp at e
    rw [hiff, Finset.mem_filter]
    refine ⟨fun h => h.1, fun h => ⟨h, ?_⟩⟩
    have hc := Finset.mem_range.mp h
    have := (hp c hc).symm.trans (hpdf c hc)
    rw [Option.some.inj this]
    exact (div_pos (hpos _ (List.getElem_mem hc)) hs).ne'
  rw [hCe] at hC
  refine ⟨hC, fun c hc => ?_, hpdf, fun u h0 h1 c w e => ?_⟩
  · have hcl := Finset.mem_range.mp hc
    have hget : es[c]? = some es[c] := List.getElem?_eq_getElem hcl
    obtain ⟨hd, hsm, _⟩ := he _ (List.getElem_mem hcl)
    refine ⟨(hC.comp c hc).resolve_right fun h => ?_, C80_mixture_rr es g wi c _ hget hd⟩
    have h1 := h.kind
    have h2 : (mixtureRR es).isSpecular c = some false := by simp [mixtureRR, hget, hsm.kind]
    rw [h1] at h2; cases h2
  · obtain ⟨d', hd', _, h3⟩ := select_ok (es.map (·.2)) (by simpa using fun b a hab => hnn (a, b) hab) hs
    obtain ⟨i, hi, _, e2, e3⟩ := h3 u h0 h1
    rw [hd] at hd'; cases hd'
    obtain ⟨hic, hw⟩ := Prod.ext_iff.mp (Option.some.inj (e3.symm.trans e))
    dsimp only at hic hw
    subst hic
    rw [List.length_map] at hi
    refine ⟨hi, ?_⟩
    rw [← hw]
    have := hd1 i (by simpa using hi)
    simp only [List.getElem_map] at this
    rw [← this, one_div, inv_mul_cancel₀ e2.ne']

/-! ### Materials of surfaces -/

/-- The BSDFs. -/
noncomputable def coatF (g : Geom) (wi wo : V3 ℝ) : Coat → V3 ℝ
  | .diffuse Kd => if V3.dot wi g.n * V3.dot wo g.n ≤ 0 then 0 else (1 / Real.pi) • Kd g
  | .glossy Ks ax ay => glossF Ks ax ay g wi wo

/-- The densities of the directions. -/
noncomputable def coatP (g : Geom) (wi wo : V3 ℝ) : Coat → ℝ
  | .diffuse _ => if V3.dot wi g.n * V3.dot wo g.n ≤ 0 then 0 else 1 / Real.pi
  | .glossy _ ax ay => glossP ax ay g wi wo

theorem coatP_side {g : Geom} {wi wo : V3 ℝ} {k : Coat} (h : 0 < coatP g wi wo k) : V3.dot wo g.n ≠ 0 := by
  intro e
  have hle : V3.dot wi g.n * V3.dot wo g.n ≤ 0 := by rw [e, mul_zero]
  refine lt_irrefl (0 : ℝ) (lt_of_lt_of_eq h ?_)
  cases k with
  | diffuse Kd => exact if_pos hle
  | glossy Ks ax ay => exact if_pos hle

/-- What they evaluate to. -/
theorem Coat.values {k : Coat} {vertex : V3 ℝ → SI} (hs : k.Sound vertex) (c : ℕ) (p wi wo : V3 ℝ) (hon : OnSurface (vertex p).geom) (hi : V3.dot wi wi = 1) (ho : V3.dot wo wo = 1) (hw : V3.dot wi (vertex p).geom.n ≠ 0) :
    NonNeg (coatF (vertex p).geom wi wo k) ∧ (∀ dir e, k.mat.eval (vertex p).geom wi wo c dir e = some (coatF (vertex p).geom wi wo k)) ∧
      ∀ e, k.mat.pdfDirection (vertex p).geom wi wo c e = some (coatP (vertex p).geom wi wo k) := by
  cases k with
  | diffuse Kd =>
    have hop := opposite_false_iff (vertex p).geom wi wo
    simp only [coatF, coatP, Coat.mat, Material.diffuse]
    by_cases hle : V3.dot wi (vertex p).geom.n * V3.dot wo (vertex p).geom.n ≤ 0
    · simp only [if_pos hle, hop.mpr hle, if_true]
      exact ⟨⟨le_rfl, le_rfl, le_rfl⟩, fun _ _ => trivial, fun _ => trivial⟩
    · have : opposite (vertex p).geom wi wo = false := by rw [Bool.eq_false_iff]; exact fun e => hle (hop.mp e)
      simp only [if_neg hle, this, Bool.false_eq_true, if_false]
      exact ⟨nonneg_smul (by positivity) (hs.1 p), fun _ _ => trivial, fun _ => trivial⟩
  | glossy Ks ax ay =>
    obtain ⟨hax, hay, hK, hK1⟩ := hs
    obtain ⟨e1, e2⟩ := glossy_eval Ks hax hay hon hi ho hw
    exact ⟨glossy_nonneg Ks ax ay hax hay _ wi hon hw hK hK1 wo _ ho e1, fun _ _ => e1, fun _ => e2⟩

theorem Coat.ok {k : Coat} {vertex : V3 ℝ → SI} (hs : k.Sound vertex) (p wi : V3 ℝ) (hon : OnSurface (vertex p).geom) (hi : V3.dot wi wi = 1) (hw : V3.dot wi (vertex p).geom.n ≠ 0) :
    MatOk k.mat (vertex p).geom wi {0} ∧ ∀ c, MaterialDensity k.mat c (vertex p).geom wi ∧ Smooth k.mat c (vertex p).geom wi ∧ MeasurableEval k.mat c (vertex p).geom wi := by
  cases k with
  | diffuse Kd => exact ⟨diffuse_ok _ _ _ hon hw (hs.1 p), fun c => ⟨C80_diffuse _ _ _ _ hon hw, diffuse_smooth _ _ _ _ hon hw (hs.1 p), (diffuse_covers _ _ _ _).2⟩⟩
  | glossy Ks ax ay =>
    obtain ⟨hax, hay, hK, hK1⟩ := hs
    exact ⟨glossy_ok Ks ax ay hax hay _ _ hon hi hw hK hK1, fun c => ⟨C80_glossy Ks ax ay hax hay c _ _ hon hi hw, glossy_smooth Ks ax ay hax hay c _ _ hon hi hw hK hK1, (glossy_covers Ks ax ay hax hay c _ _ hon hi hw).2⟩⟩

theorem Coat.reciprocal {k : Coat} {vertex : V3 ℝ → SI} (hs : k.Sound vertex) (p wi wo : V3 ℝ) (hon : OnSurface (vertex p).geom) (hi : V3.dot wi wi = 1) (ho : V3.dot wo wo = 1) (hw : V3.dot wi (vertex p).geom.n ≠ 0)
    (hw' : V3.dot wo (vertex p).geom.n ≠ 0) : coatF (vertex p).geom wi wo k = coatF (vertex p).geom wo wi k := by
  have e1 := (Coat.values hs 0 p wi wo hon hi ho hw).2.1 .LE false
  have e2 := (Coat.values hs 0 p wo wi hon ho hi hw').2.1 .LE false
  have e3 : k.mat.eval (vertex p).geom wi wo 0 .LE false = k.mat.eval (vertex p).geom wo wi 0 .LE false := by
    cases k with
    | diffuse Kd => exact C76_diffuse Kd _ wi wo 0 _ _ _
    | glossy Ks ax ay => exact C76_glossy Ks ax ay _ wi wo hi ho 0 _ _ _
  rw [e3, e2] at e1
  exact (Option.some.inj e1).symm

noncomputable def finF (g : Geom) (c : ℕ) (wi wo : V3 ℝ) : Finish → V3 ℝ
  | .plain k => coatF g wi wo k
  | .mix ks => match ks[c]? with
    | some e => e.2 • coatF g wi wo e.1
    | none => 0
  | .marg ks => (ks.map fun e => e.2 • coatF g wi wo e.1).sum
  | .obj Kd Ks ax ay => coatF g wi wo (.diffuse Kd) + coatF g wi wo (.glossy Ks ax ay)

/-- The probability with which the material of an OBJ model samples its diffuse part. -/
noncomputable def partD (Kd Ks : V3 ℝ) : ℝ := if compMax Kd = 0 ∧ compMax Ks = 0 then 1 else compMax Kd / (compMax Kd + compMax Ks)

noncomputable def finP (g : Geom) (c : ℕ) (wi wo : V3 ℝ) : Finish → ℝ
  | .plain k => coatP g wi wo k
  | .mix ks => match ks[c]? with
    | some e => coatP g wi wo e.1
    | none => 0
  | .marg ks => (ks.map fun e => e.2 / (ks.map (·.2)).sum * coatP g wi wo e.1).sum
  | .obj Kd Ks ax ay => partD (Kd g) Ks * coatP g wi wo (.diffuse Kd) + (1 - partD (Kd g) Ks) * coatP g wi wo (.glossy Ks ax ay)

/-- The probabilities of the components. -/
noncomputable def finC (c : ℕ) : Finish → ℝ
  | .plain _ => 1
  | .mix ks => match ks[c]? with
    | some e => e.2 / (ks.map (·.2)).sum
    | none => 0
  | .marg _ => 1
  | .obj .. => 1

theorem mix_at {ks : List (Coat × ℝ)} {c : ℕ} (hc : c < ks.length) : (ks.map fun e => (e.1.mat, e.2))[c]? = some (ks[c].1.mat, ks[c].2) := by
  rw [List.getElem?_map, List.getElem?_eq_getElem hc]; rfl

theorem coat_kind (k : Coat) (c : ℕ) : k.mat.isSpecular c = some false := by cases k <;> rfl

/-- Diffuse and glossy entries are in one group. -/
theorem groups_coats (ks : List (Coat × ℝ)) : groups (ks.map fun e => (e.1.mat, e.2)) = [ks.map fun e => (e.1.mat, e.2)] := by
  have h : ∀ e ∈ ks.map fun e => (e.1.mat, e.2), (!decide (e.1.isSpecular 0 = some true)) = true := fun e he => by
    obtain ⟨e', _, rfl⟩ := List.mem_map.mp he
    simp [coat_kind]
  rw [C45_groups, List.filter_eq_self.mpr h, List.filter_eq_nil_iff.mpr fun e he => by have := h e he; simpa using this]
  rfl

theorem coats_sum (ks : List (Coat × ℝ)) : ((ks.map fun e => (e.1.mat, e.2)).map (·.2)).sum = (ks.map (·.2)).sum := by rw [List.map_map]; rfl

theorem weights_pos {ks : List (Coat × ℝ)} {vertex : V3 ℝ → SI} (hs : ks ≠ [] ∧ ∀ e ∈ ks, 0 < e.2 ∧ e.1.Sound vertex) : 0 < (ks.map (·.2)).sum :=
  List.sum_pos _ (fun x hx => by obtain ⟨e, h, rfl⟩ := List.mem_map.mp hx; exact (hs.2 e h).1) (by simpa using hs.1)

theorem Coat.free {k : Coat} {vertex : V3 ℝ → SI} (hs : k.Sound vertex) (p wi : V3 ℝ) (hon : OnSurface (vertex p).geom) (hi : V3.dot wi wi = 1) (hw : V3.dot wi (vertex p).geom.n ≠ 0) : FreeDensity k.mat 0 (vertex p).geom wi := by
  cases k with
  | diffuse Kd => exact diffuse_free _ _ _ _ hon hw
  | glossy Ks ax ay => exact glossy_free _ _ _ hs.1 hs.2.1 _ _ _ hon hi hw

theorem partD_eq (Kd : Geom → V3 ℝ) (Ks : V3 ℝ) (ax ay : ℝ) (g : Geom) (hKd : NonNeg (Kd g)) (hK : NonNeg Ks) : diffuseProb (Material.diffuse Kd) (Material.glossy Ks ax ay) g = some (partD (Kd g) Ks) := by
  have hmax : ∀ v : V3 ℝ, NonNeg v → 0 ≤ compMax v := fun v hv => le_trans hv.2.2 (le_max_right _ _)
  have h1 := hmax _ hKd
  have h2 := hmax _ hK
  unfold diffuseProb partD
  show (if compMax (Kd g) = 0 ∧ compMax Ks = 0 then some 1 else divF (compMax (Kd g)) (compMax (Kd g) + compMax Ks)) = _
  split_ifs with h
  · rfl
  · have : compMax (Kd g) + compMax Ks ≠ 0 := fun e => h ⟨by linarith, by linarith⟩
    simp [divF, this]

theorem Finish.values {f : Finish} {vertex : V3 ℝ → SI} (hs : f.Sound vertex) {c : ℕ} (hc : c ∈ f.comps) (p wi wo : V3 ℝ) (hon : OnSurface (vertex p).geom) (hi : V3.dot wi wi = 1) (ho : V3.dot wo wo = 1)
    (hw : V3.dot wi (vertex p).geom.n ≠ 0) :
    NonNeg (finF (vertex p).geom c wi wo f) ∧ (∀ dir e, f.mat.eval (vertex p).geom wi wo c dir e = some (finF (vertex p).geom c wi wo f)) ∧
      ∀ e, f.mat.pdfDirection (vertex p).geom wi wo c e = some (finP (vertex p).geom c wi wo f) := by
  cases f with
  | plain k => exact Coat.values hs c p wi wo hon hi ho hw
  | mix ks =>
    have hl : c < ks.length := Finset.mem_range.mp hc
    have hm := List.getElem_mem hl
    obtain ⟨h1, h2, h3⟩ := Coat.values (hs.2 _ hm).2 0 p wi wo hon hi ho hw
    simp only [finF, finP, List.getElem?_eq_getElem hl]
    refine ⟨nonneg_smul (hs.2 _ hm).1.le h1, fun dir e => ?_, fun e => ?_⟩
    · simp only [Finish.mat, mixtureRR, mix_at hl, Option.bind_some, h2 dir e, Option.map_some]
    · simp only [Finish.mat, mixtureRR, mix_at hl, Option.bind_some, h3 e]
  | marg ks =>
    obtain rfl : c = 0 := Finset.mem_singleton.mp hc
    have hv := fun (e : Coat × ℝ) (he : e ∈ ks) => Coat.values (hs.2 e he).2 0 p wi wo hon hi ho hw
    simp only [finF, finP, Finish.mat, mixtureMarg, groups_coats, List.getElem?_cons_zero, Option.bind_some]
    refine ⟨nonneg_sum _ _ fun e he => nonneg_smul (hs.2 e he).1.le (hv e he).1, fun dir ed => ?_, fun ed => ?_⟩
    · unfold groupEval
      rw [List.mapM_map, mapM_eq_map ks _ (fun e => e.2 • coatF (vertex p).geom wi wo e.1) fun e he => by rw [Function.comp_apply, (hv e he).2.1 dir ed]; rfl]
      rfl
    · have hpos : 0 < ((ks.map fun e => (e.1.mat, e.2)).map (·.2)).sum := by rw [coats_sum]; exact weights_pos hs
      have hall : ∀ x ∈ ks.map fun e => (e.1.mat, e.2), ∃ P, x.1.pdfDirection (vertex p).geom wi wo 0 ed = some P := fun x hx => by
        obtain ⟨e, he, rfl⟩ := List.mem_map.mp hx
        exact ⟨_, (hv e he).2.2 ed⟩
      choose! P hP using hall
      rw [groupPdf_at hpos hP, coats_sum, List.map_map]
      refine congrArg some (congrArg List.sum (List.map_congr_left fun e he => ?_))
      have := (hP _ (List.mem_map_of_mem (f := fun e : Coat × ℝ => (e.1.mat, e.2)) he)).symm.trans ((hv e he).2.2 ed)
      show e.2 / _ * P (e.1.mat, e.2) = _
      rw [Option.some.inj this]
  | obj Kd Ks ax ay =>
    obtain rfl : c = 0 := Finset.mem_singleton.mp hc
    obtain ⟨a1, a2, a3⟩ := Coat.values hs.1 0 p wi wo hon hi ho hw
    obtain ⟨b1, b2, b3⟩ := Coat.values hs.2 0 p wi wo hon hi ho hw
    have hq := partD_eq Kd Ks ax ay (vertex p).geom (hs.1.1 p) hs.2.2.2.1
    simp only [Coat.mat] at a2 a3 b2 b3
    refine ⟨⟨add_nonneg a1.1 b1.1, add_nonneg a1.2.1 b1.2.1, add_nonneg a1.2.2 b1.2.2⟩, fun dir e => ?_, fun e => ?_⟩
    · simp [Finish.mat, objMixture, objEval, a2 dir e, b2 dir e, finF]
    · simp [Finish.mat, objMixture, objPdf, a3 e, b3 e, hq, finP]

theorem Finish.ok {f : Finish} {vertex : V3 ℝ → SI} (hs : f.Sound vertex) (p wi : V3 ℝ) (hon : OnSurface (vertex p).geom) (hi : V3.dot wi wi = 1) (hw : V3.dot wi (vertex p).geom.n ≠ 0) :
    MatOk f.mat (vertex p).geom wi f.comps ∧ (∀ c ∈ f.comps, Smooth f.mat c (vertex p).geom wi ∧ MaterialDensity f.mat c (vertex p).geom wi) ∧
      (∀ c ∈ f.comps, f.mat.pdfComponent c (vertex p).geom wi = some (finC c f) ∧ 0 < finC c f) ∧
      ∀ u, 0 ≤ u → u < 1 → ∀ c w, f.mat.sampleComponent u (vertex p).geom wi = some (c, w) → w * finC c f = 1 := by
  cases f with
  | plain k =>
    obtain ⟨h1, h2⟩ := Coat.ok hs p wi hon hi hw
    refine ⟨h1, fun c _ => ⟨(h2 c).2.1, (h2 c).1⟩, fun c _ => ⟨by cases k <;> rfl, one_pos⟩, fun u _ _ c w e => ?_⟩
    have e0 : k.mat.sampleComponent u (vertex p).geom wi = some (0, 1) := by cases k <;> rfl
    have : (0, (1 : ℝ)) = (c, w) := Option.some.inj (e0.symm.trans e)
    have : (1 : ℝ) = w := congrArg Prod.snd this
    rw [← this]; exact one_mul 1
  | mix ks =>
    have hpos : ∀ e ∈ ks.map fun e => (e.1.mat, e.2), 0 < e.2 := fun e he => by
      obtain ⟨e', h', rfl⟩ := List.mem_map.mp he
      exact (hs.2 e' h').1
    obtain ⟨h1, h2, h3, h4⟩ := rr_range (ks.map fun e => (e.1.mat, e.2)) (vertex p).geom wi hpos (by simpa using hs.1) fun e he => by
      obtain ⟨e', h', rfl⟩ := List.mem_map.mp he
      exact (Coat.ok (hs.2 e' h').2 p wi hon hi hw).2 0
    have hsum : ((ks.map fun e => (e.1.mat, e.2)).map (·.2)).sum = (ks.map (·.2)).sum := by rw [List.map_map]; rfl
    have hs0 : 0 < (ks.map (·.2)).sum := List.sum_pos _ (fun x hx => by obtain ⟨e, h, rfl⟩ := List.mem_map.mp hx; exact (hs.2 e h).1) (by simpa using hs.1)
    rw [List.length_map] at h1 h2
    refine ⟨h1, h2, fun c hc => ?_, fun u hu0 hu1 c w e => ?_⟩
    · have hl : c < ks.length := Finset.mem_range.mp hc
      simp only [finC, List.getElem?_eq_getElem hl]
      refine ⟨?_, div_pos (hs.2 _ (List.getElem_mem hl)).1 hs0⟩
      have := h3 c (by simpa using hl)
      rw [hsum, List.getElem_map] at this
      exact this
    · obtain ⟨hc, he⟩ := h4 u hu0 hu1 c w e
      have hl : c < ks.length := by simpa using hc
      rw [hsum, List.getElem_map] at he
      simp only [finC, List.getElem?_eq_getElem hl]
      exact he
  | marg ks =>
    have hpos : ∀ e ∈ ks.map fun e => (e.1.mat, e.2), 0 < e.2 := fun e he => by
      obtain ⟨e', h', rfl⟩ := List.mem_map.mp he
      exact (hs.2 e' h').1
    have hne : (ks.map fun e => (e.1.mat, e.2)) ≠ [] := by simpa using hs.1
    obtain ⟨h1, h2⟩ := marg_ok (ks.map fun e => (e.1.mat, e.2)) (vertex p).geom wi hpos hne fun e he => by
      obtain ⟨e', h', rfl⟩ := List.mem_map.mp he
      have := (Coat.ok (hs.2 e' h').2 p wi hon hi hw).2 0
      exact .inl ⟨Coat.free (hs.2 e' h').2 p wi hon hi hw, this.2⟩
    have hg : (groups (ks.map fun e => (e.1.mat, e.2)))[0]? = some (ks.map fun e => (e.1.mat, e.2)) := by rw [groups_coats]; rfl
    have h0 := (h1 0 _ hg hne).resolve_right fun h => h.1 rfl
    have hsum := (weights_pos hs).ne'
    have hsel := fun u => selectComp_one hsum u
    have hmap : (groups (ks.map fun e => (e.1.mat, e.2))).map (fun gr => (gr.map (·.2)).sum) = [(ks.map (·.2)).sum] := by
      rw [groups_coats, List.map_cons, coats_sum]; rfl
    refine ⟨h2 {0} fun c => ?_, fun c hc => ?_, fun c hc => ?_, fun u hu0 hu1 c w e => ?_⟩
    · rw [Finset.mem_singleton]
      constructor
      · rintro rfl; exact ⟨_, hg, hne⟩
      · rintro ⟨grp, h3, _⟩
        rw [groups_coats] at h3
        have := (List.getElem?_eq_some_iff.mp h3).1
        simpa using this
    · obtain rfl : c = 0 := Finset.mem_singleton.mp hc
      exact h0.2
    · obtain rfl : c = 0 := Finset.mem_singleton.mp hc
      refine ⟨?_, one_pos⟩
      simp only [Finish.mat, mixtureMarg, hmap, finC]
      exact (hsel 0).2
    · have e' : selectComp (distOf [(ks.map (·.2)).sum]) u = some (c, w) := by rw [← hmap]; exact e
      rw [(hsel u).1] at e'
      have : (1 : ℝ) = w := congrArg Prod.snd (Option.some.inj e')
      rw [← this]; exact one_mul 1
  | obj Kd Ks ax ay =>
    have hmax : ∀ v : V3 ℝ, NonNeg v → 0 ≤ compMax v := fun v hv => le_trans hv.2.2 (le_max_right _ _)
    obtain ⟨h1, hax, hay, hK, hK1⟩ := hs
    have hok : MatOk (objMixture (Material.diffuse Kd) (Material.glossy Ks ax ay) fun _ => 1) (vertex p).geom wi {0} := obj_ok Kd Ks ax ay hax hay _ _ wi hon hi hw (h1.1 p) hK hK1 rfl
    refine ⟨hok, fun c hc => ?_, fun c hc => ?_, fun u hu0 hu1 c w e => ?_⟩
    · obtain rfl : c = 0 := Finset.mem_singleton.mp hc
      refine ⟨(hok.comp 0 (by simp)).resolve_right fun h => ?_, C80_obj_mixture Kd Ks ax ay hax hay _ _ wi hon hi hw (hmax _ (h1.1 p)) (hmax _ hK)⟩
      have := h.kind
      simp [objMixture] at this
    · obtain rfl : c = 0 := Finset.mem_singleton.mp hc
      exact ⟨by simp [Finish.mat, objMixture, finC], one_pos⟩
    · have e' : (objMixture (Material.diffuse Kd) (Material.glossy Ks ax ay) fun _ => 1).sampleComponent u (vertex p).geom wi = some (c, w) := e
      simp only [objMixture, if_pos hu1] at e'
      simp [divF] at e'
      simp only [finC]
      rw [← e'.2, mul_one]

theorem Finish.reciprocal {f : Finish} {vertex : V3 ℝ → SI} (hs : f.Sound vertex) (c : ℕ) (p wi wo : V3 ℝ) (hon : OnSurface (vertex p).geom) (hi : V3.dot wi wi = 1) (ho : V3.dot wo wo = 1) (hw : V3.dot wi (vertex p).geom.n ≠ 0)
    (hw' : V3.dot wo (vertex p).geom.n ≠ 0) : finF (vertex p).geom c wi wo f = finF (vertex p).geom c wo wi f := by
  cases f with
  | plain k => exact Coat.reciprocal hs p wi wo hon hi ho hw hw'
  | mix ks =>
    simp only [finF]
    cases he : ks[c]? with
    | none => rfl
    | some e => simp only [Coat.reciprocal (hs.2 e (List.mem_of_getElem? he)).2 p wi wo hon hi ho hw hw']
  | marg ks =>
    simp only [finF]
    exact congrArg List.sum (List.map_congr_left fun e he => by rw [Coat.reciprocal (hs.2 e he).2 p wi wo hon hi ho hw hw'])
  | obj Kd Ks ax ay => simp only [finF, Coat.reciprocal hs.1 p wi wo hon hi ho hw hw', Coat.reciprocal hs.2 p wi wo hon hi ho hw hw']

theorem finP_side {g : Geom} {c : ℕ} {wi wo : V3 ℝ} {f : Finish} (h : 0 < finP g c wi wo f) : V3.dot wo g.n ≠ 0 := by
  cases f with
  | plain k => exact coatP_side h
  | mix ks =>
    simp only [finP] at h
    cases he : ks[c]? with
    | none => rw [he] at h; exact absurd h (lt_irrefl _)
    | some e => rw [he] at h; exact coatP_side h
  | marg ks =>
    intro e0
    refine lt_irrefl (0 : ℝ) (lt_of_lt_of_eq h (List.sum_eq_zero fun x hx => ?_))
    obtain ⟨e, _, rfl⟩ := List.mem_map.mp hx
    have hle : V3.dot wi g.n * V3.dot wo g.n ≤ 0 := by rw [e0, mul_zero]
    have : coatP g wi wo e.1 = 0 := by cases e.1 <;> exact if_pos hle
    rw [this, mul_zero]
  | obj Kd Ks ax ay =>
    intro e0
    have hle : V3.dot wi g.n * V3.dot wo g.n ≤ 0 := by rw [e0, mul_zero]
    have h1 : coatP g wi wo (.diffuse Kd) = 0 := if_pos hle
    have h2 : coatP g wi wo (.glossy Ks ax ay) = 0 := if_pos hle
    simp only [finP, h1, h2, mul_zero, add_zero] at h
    exact lt_irrefl _ h

end LM.Transport
