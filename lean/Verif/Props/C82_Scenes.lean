import Verif.Props.C82_Finish
import Verif.Spec.Parts
import Verif.Props.C82_Triangles
/-
  C82 and C86 in scenes described by their triangles, materials and lights: no requirement on intersections, visibility or measurability is left.
-/
namespace LM.Transport
open MeasureTheory LM LM.Surface LM.Material LM.Light LM.MathF LM.Path LM.Render LM.Solid Set
open scoped ENNReal

/-! ### A plane meets a triangle in a null set, unless it contains it -/

theorem line_null {α β γ : ℝ} (h : ¬ (α = 0 ∧ α + β = 0 ∧ α + γ = 0)) : volume {q : ℝ × ℝ | α + β * q.1 + γ * q.2 = 0} = 0 := by
  have hm : MeasurableSet {q : ℝ × ℝ | α + β * q.1 + γ * q.2 = 0} := measurableSet_eq_fun ((measurable_const.add (measurable_const.mul measurable_fst)).add (measurable_const.mul measurable_snd)) measurable_const
  rw [Measure.volume_eq_prod, Measure.measure_prod_null hm]
  by_cases hc : γ = 0
  · subst hc
    by_cases hb : β = 0
    · subst hb
      refine Filter.Eventually.of_forall fun x => ?_
      have : Prod.mk x ⁻¹' {q : ℝ × ℝ | α + 0 * q.1 + 0 * q.2 = 0} = ∅ := by
        ext y
        simp only [mem_preimage, mem_ofPred_eq, mem_empty_iff_false, iff_false]
        intro e
        exact h ⟨by linarith, by linarith, by linarith⟩
      show volume _ = _
      rw [this]; simp
    · have h0 : ∀ᵐ x : ℝ, x ≠ -α / β := by rw [ae_iff]; simp
      filter_upwards [h0] with x hx
      have : Prod.mk x ⁻¹' {q : ℝ × ℝ | α + β * q.1 + 0 * q.2 = 0} = ∅ := by
        ext y
        simp only [mem_preimage, mem_ofPred_eq, mem_empty_iff_false, iff_false]
        intro e
        refine hx ?_
        rw [eq_div_iff hb]; linarith
      rw [this]; simp
  · refine Filter.Eventually.of_forall fun x => ?_
    have : Prod.mk x ⁻¹' {q : ℝ × ℝ | α + β * q.1 + γ * q.2 = 0} ⊆ {(-α - β * x) / γ} := by
      intro y hy
      have hy : α + β * x + γ * y = 0 := hy
      rw [mem_singleton_iff, eq_div_iff hc]; linarith
    exact measure_mono_null this (by simp)

theorem plane_ae (t : Tri) (w o : V3 ℝ) (h : ¬ (V3.dot w (t.a - o) = 0 ∧ V3.dot w (t.b - o) = 0 ∧ V3.dot w (t.c - o) = 0)) : ∀ᵐ p ∂triMeasure t, V3.dot w (p - o) ≠ 0 := by
  unfold triMeasure
  refine Measure.ae_smul_measure ?_ _
  have hm : MeasurableSet {p : V3 ℝ | V3.dot w (p - o) ≠ 0} := (measurableSet_eq_fun (measurable_dot3 measurable_const (measurable_sub3 o)) measurable_const).compl
  rw [ae_map_iff (measurable_triAt t).aemeasurable hm]
  refine ae_restrict_of_ae ?_
  rw [ae_iff]
  have e : {q : ℝ × ℝ | ¬ V3.dot w (triAt t q - o) ≠ 0} = {q | V3.dot w (t.a - o) + V3.dot w (t.b - t.a) * q.1 + V3.dot w (t.c - t.a) * q.2 = 0} := by
    ext q
    simp only [mem_ofPred_eq, not_not]
    have : V3.dot w (triAt t q - o) = V3.dot w (t.a - o) + V3.dot w (t.b - t.a) * q.1 + V3.dot w (t.c - t.a) * q.2 := by
      simp only [triAt, V3.dot, V3.add_x, V3.add_y, V3.add_z, V3.smul_x, V3.smul_y, V3.smul_z, V3.sub_x, V3.sub_y, V3.sub_z]; ring
    rw [this]
  rw [e]
  refine line_null ?_
  have e1 : V3.dot w (t.a - o) + V3.dot w (t.b - t.a) = V3.dot w (t.b - o) := by simp only [V3.dot, V3.sub_x, V3.sub_y, V3.sub_z]; ring
  have e2 : V3.dot w (t.a - o) + V3.dot w (t.c - t.a) = V3.dot w (t.c - o) := by simp only [V3.dot, V3.sub_x, V3.sub_y, V3.sub_z]; ring
  rw [e1, e2]
  exact h

/-! ### Normals -/

variable {ps : List Part} {sgn : V3 ℝ → Bool} {junk : V3 ℝ}

theorem mem_faces {f : Int × Tri} : f ∈ faces ps ↔ ∃ a ∈ ps, (a.prim, triMap a.M a.t) = f := List.mem_map

theorem prims_faces {j : Int} : j ∈ (faces ps).map (·.1) ↔ ∃ a ∈ ps, a.prim = j := by
  unfold faces
  rw [List.map_map, List.mem_map]
  rfl

theorem normalAt_cases (ps : List Part) (j : Int) (p : V3 ℝ) :
    (∃ a ∈ ps, (a.prim = j ∧ Inside (triMap a.M a.t) p) ∧ normalAt ps j p = frontNormal a.M a.t) ∨ ((∀ a ∈ ps, ¬ (a.prim = j ∧ Inside (triMap a.M a.t) p)) ∧ normalAt ps j p = ⟨0, 0, 1⟩) := by
  induction ps with
  | nil => exact .inr ⟨fun a ha => absurd ha List.not_mem_nil, rfl⟩
  | cons b ps ih =>
    by_cases hb : b.prim = j ∧ Inside (triMap b.M b.t) p
    · exact .inl ⟨b, List.mem_cons_self, hb, if_pos hb⟩
    · have e : normalAt (b :: ps) j p = normalAt ps j p := if_neg hb
      rw [e]
      rcases ih with ⟨a, ha, h⟩ | ⟨h1, h2⟩
      · exact .inl ⟨a, List.mem_cons_of_mem _ ha, h⟩
      · refine .inr ⟨fun a ha => ?_, h2⟩
        rcases List.mem_cons.mp ha with rfl | ha
        · exact hb
        · exact h1 a ha

theorem normalAt_eq (hs : Separate (faces ps)) {a : Part} (ha : a ∈ ps) {p : V3 ℝ} (hi : Inside (triMap a.M a.t) p) : normalAt ps a.prim p = frontNormal a.M a.t := by
  rcases normalAt_cases ps a.prim p with ⟨b, hb, ⟨_, hbi⟩, e⟩ | ⟨h, _⟩
  · obtain ⟨k, hk⟩ := List.getElem?_of_mem ha
    obtain ⟨k', hk'⟩ := List.getElem?_of_mem hb
    have h1 : (faces ps)[k]? = some (a.prim, triMap a.M a.t) := by unfold faces; rw [List.getElem?_map, hk]; rfl
    have h2 : (faces ps)[k']? = some (b.prim, triMap b.M b.t) := by unfold faces; rw [List.getElem?_map, hk']; rfl
    have := hs.apart k k' _ _ p h1 h2 hi hbi
    subst this
    rw [hk] at hk'
    have : a = b := Option.some.inj hk'
    subst this
    exact e
  · exact absurd ⟨rfl, hi⟩ (h a ha)

theorem frontNormal_unit {M : Aff ℝ} (hM : M.det ≠ 0) {t : Tri} (h : 0 < twiceArea (triMap M t)) :
    V3.dot (frontNormal M t) (frontNormal M t) = 1 ∧ (frontNormal M t = dirOf (triCross (triMap M t)) ∨ frontNormal M t = -dirOf (triCross (triMap M t))) ∧ ∀ d, V3.dot (triCross (triMap M t)) d ≠ 0 → V3.dot d (frontNormal M t) ≠ 0 := by
  obtain ⟨k, hk, hk1⟩ := frontNormal_par M hM t
  have hk1 := hk1 h
  have hA : twiceArea (triMap M t) = Real.sqrt (V3.dot (triCross (triMap M t)) (triCross (triMap M t))) := rfl
  have hsq : V3.dot (triCross (triMap M t)) (triCross (triMap M t)) = twiceArea (triMap M t) * twiceArea (triMap M t) := by
    rw [hA, Real.mul_self_sqrt (dot_self_nonneg _)]
  have hk0 : k ≠ 0 := by rintro rfl; simp at hk1
  refine ⟨?_, ?_, fun d hd => ?_⟩
  · rw [hk, V3.dot_smul_right, V3.dot_comm, V3.dot_smul_right, hsq]
    have : k * (k * (twiceArea (triMap M t) * twiceArea (triMap M t))) = (|k| * twiceArea (triMap M t)) * (|k| * twiceArea (triMap M t)) := by
      have := abs_mul_abs_self k
      calc _ = (k * k) * (twiceArea (triMap M t) * twiceArea (triMap M t)) := by ring
        _ = (|k| * |k|) * (twiceArea (triMap M t) * twiceArea (triMap M t)) := by rw [this]
        _ = _ := by ring
    rw [this, hk1, one_mul]
  · unfold dirOf
    rw [← hA, hk]
    rcases abs_choice k with e | e
    · left; rw [e] at hk1; rw [eq_div_of_mul_eq h.ne' hk1]
    · right; rw [e] at hk1
      rw [← neg_smul, ← eq_div_of_mul_eq h.ne' hk1, neg_neg]
  · rw [hk, V3.dot_smul_right, V3.dot_comm]
    exact mul_ne_zero hk0 hd

theorem measurable_normalAt (hs : ∀ a ∈ ps, 0 < twiceArea (triMap a.M a.t)) (j : Int) : Measurable fun p => normalAt ps j p := by
  classical
  induction ps with
  | nil => exact measurable_const
  | cons a ps ih =>
    have hA : V3.dot (triCross (triMap a.M a.t)) (triCross (triMap a.M a.t)) ≠ 0 := by
      intro e
      have := hs a List.mem_cons_self
      unfold twiceArea at this
      rw [e, Real.sqrt_zero] at this
      exact lt_irrefl _ this
    have e : (fun p => normalAt (a :: ps) j p) = fun p => if p ∈ {p | a.prim = j ∧ Inside (triMap a.M a.t) p} then frontNormal a.M a.t else normalAt ps j p := rfl
    rw [e]
    exact Measurable.ite ((MeasurableSet.const _).inter (measurable_inside_tri _ hA)) measurable_const (ih fun b hb => hs b (List.mem_cons_of_mem _ hb))

variable {W : World} {Q : Query} {n : Int} {cam : Camera} {fin : Int → Finish}

theorem Room.size (h : Room W Q n cam ps sgn junk) {a : Part} (ha : a ∈ ps) : 0 < twiceArea (triMap a.M a.t) := by
  have hm : (a.prim, triMap a.M a.t) ∈ faces ps := mem_faces.mpr ⟨a, ha, rfl⟩
  exact h.separate.area (a.prim, triMap a.M a.t) hm

theorem Room.unit (h : Room W Q n cam ps sgn junk) (j : Int) (p : V3 ℝ) : V3.dot (normalAt ps j p) (normalAt ps j p) = 1 := by
  rcases normalAt_cases ps j p with ⟨a, ha, _, e⟩ | ⟨_, e⟩
  · rw [e]; exact (frontNormal_unit (h.regular a ha) (h.size ha)).1
  · rw [e]; simp [V3.dot]

theorem Room.on (h : Room W Q n cam ps sgn junk) (j : Int) (p : V3 ℝ) : OnSurface (vertexAt ps sgn junk j p).geom := C32_basis _ _ (h.unit j p)

theorem Room.faceted (h : Room W Q n cam ps sgn junk) : Faceted Q (faces ps) (vertexAt ps sgn junk) := by
  refine h.traced.faceted h.separate (fun j p => ⟨rfl, rfl, rfl, rfl⟩) (fun f hf p hi => ?_) (measurable_normalAt fun a ha => h.size ha)
  obtain ⟨a, ha, rfl⟩ := mem_faces.mp hf
  have e : (vertexAt ps sgn junk a.prim p).geom.gn = normalAt ps a.prim p := rfl
  dsimp only at hi ⊢
  rw [e, normalAt_eq h.separate ha hi]
  exact (frontNormal_unit (h.regular a ha) (h.size ha)).2.1

noncomputable def paintF (ps : List Part) (sgn : V3 ℝ → Bool) (junk : V3 ℝ) (fin : Int → Finish) (j : Int) (c : ℕ) (p wi wo : V3 ℝ) : V3 ℝ := finF (vertexAt ps sgn junk j p).geom c wi wo (fin j)

noncomputable def paintP (ps : List Part) (sgn : V3 ℝ → Bool) (junk : V3 ℝ) (fin : Int → Finish) (j : Int) (c : ℕ) (p wi wo : V3 ℝ) : ℝ := finP (vertexAt ps sgn junk j p).geom c wi wo (fin j)

/-- Functions of the normal, which takes finitely many values. -/
theorem measurable_of_normal {β : Type} [MeasurableSpace β] (G : V3 ℝ → V3 ℝ × V3 ℝ → β) (hG : ∀ m, Measurable (G m)) (j : Int) :
    ∀ ps : List Part, (∀ a ∈ ps, 0 < twiceArea (triMap a.M a.t)) → Measurable fun q : V3 ℝ × V3 ℝ × V3 ℝ => G (normalAt ps j q.1) q.2 := by
  classical
  intro ps
  induction ps with
  | nil => intro _; exact (hG _).comp measurable_snd
  | cons a ps ih =>
    intro hs
    have hA : V3.dot (triCross (triMap a.M a.t)) (triCross (triMap a.M a.t)) ≠ 0 := by
      intro e
      have := hs a List.mem_cons_self
      unfold twiceArea at this
      rw [e, Real.sqrt_zero] at this
      exact lt_irrefl _ this
    have hm : MeasurableSet {q : V3 ℝ × V3 ℝ × V3 ℝ | a.prim = j ∧ Inside (triMap a.M a.t) q.1} := measurable_fst ((MeasurableSet.const _).inter (measurable_inside_tri _ hA))
    have e : (fun q : V3 ℝ × V3 ℝ × V3 ℝ => G (normalAt (a :: ps) j q.1) q.2) = fun q => if q ∈ {q : V3 ℝ × V3 ℝ × V3 ℝ | a.prim = j ∧ Inside (triMap a.M a.t) q.1} then G (frontNormal a.M a.t) q.2 else G (normalAt ps j q.1) q.2 := by
      funext q
      by_cases hq : a.prim = j ∧ Inside (triMap a.M a.t) q.1
      · rw [if_pos (show q ∈ {q : V3 ℝ × V3 ℝ × V3 ℝ | a.prim = j ∧ Inside (triMap a.M a.t) q.1} from hq), show normalAt (a :: ps) j q.1 = frontNormal a.M a.t from if_pos hq]
      · rw [if_neg (show q ∉ {q : V3 ℝ × V3 ℝ × V3 ℝ | a.prim = j ∧ Inside (triMap a.M a.t) q.1} from hq), show normalAt (a :: ps) j q.1 = normalAt ps j q.1 from if_neg hq]
    rw [e]
    exact Measurable.ite hm ((hG _).comp measurable_snd) (ih fun b hb => hs b (List.mem_cons_of_mem _ hb))

/-- The geometry of a point with the normal m. -/
noncomputable def geomOf (sgn : V3 ℝ → Bool) (junk m : V3 ℝ) : Geom := makeOnSurface 0 m m (sgn m) junk

theorem glossF_at (Ks : V3 ℝ) (ax ay : ℝ) (j : Int) (p wi wo : V3 ℝ) : glossF Ks ax ay (vertexAt ps sgn junk j p).geom wi wo = glossF Ks ax ay (geomOf sgn junk (normalAt ps j p)) wi wo := rfl

theorem glossP_at (ax ay : ℝ) (j : Int) (p wi wo : V3 ℝ) : glossP ax ay (vertexAt ps sgn junk j p).geom wi wo = glossP ax ay (geomOf sgn junk (normalAt ps j p)) wi wo := rfl

theorem Room.measurableCoat (h : Room W Q n cam ps sgn junk) (j : Int) {k : Coat} (hs : k.Sound (vertexAt ps sgn junk j)) :
    Measurable (fun q : V3 ℝ × V3 ℝ × V3 ℝ => coatF (vertexAt ps sgn junk j q.1).geom q.2.1 q.2.2 k) ∧ Measurable fun q : V3 ℝ × V3 ℝ × V3 ℝ => coatP (vertexAt ps sgn junk j q.1).geom q.2.1 q.2.2 k := by
  have hn : Measurable fun q : V3 ℝ × V3 ℝ × V3 ℝ => normalAt ps j q.1 := (measurable_normalAt (fun a ha => h.size ha) j).comp measurable_fst
  have hle : MeasurableSet {q : V3 ℝ × V3 ℝ × V3 ℝ | V3.dot q.2.1 (normalAt ps j q.1) * V3.dot q.2.2 (normalAt ps j q.1) ≤ 0} :=
    measurableSet_le ((measurable_dot3 (measurable_fst.comp measurable_snd) hn).mul (measurable_dot3 (measurable_snd.comp measurable_snd) hn)) measurable_const
  cases k with
  | diffuse Kd => exact ⟨Measurable.ite hle measurable_const (measurable_smul3 measurable_const (hs.2.comp measurable_fst)), Measurable.ite hle measurable_const measurable_const⟩
  | glossy Ks ax ay =>
    simp only [coatF, coatP, glossF_at, glossP_at]
    exact ⟨measurable_of_normal (fun m q => glossF Ks ax ay (geomOf sgn junk m) q.1 q.2) (fun m => (measurable_glossF _ _ _ _).1) j ps fun a ha => h.size ha,
      measurable_of_normal (fun m q => glossP ax ay (geomOf sgn junk m) q.1 q.2) (fun m => (measurable_glossF 0 _ _ _).2) j ps fun a ha => h.size ha⟩

theorem Room.measurableFinish (h : Room W Q n cam ps sgn junk) (j : Int) {f : Finish} (hs : f.Sound (vertexAt ps sgn junk j)) (c : ℕ) :
    Measurable (fun q : V3 ℝ × V3 ℝ × V3 ℝ => finF (vertexAt ps sgn junk j q.1).geom c q.2.1 q.2.2 f) ∧ Measurable fun q : V3 ℝ × V3 ℝ × V3 ℝ => finP (vertexAt ps sgn junk j q.1).geom c q.2.1 q.2.2 f := by
  cases f with
  | plain k => exact h.measurableCoat j hs
  | mix ks =>
    simp only [finF, finP]
    cases he : ks[c]? with
    | none => exact ⟨measurable_const, measurable_const⟩
    | some e =>
      obtain ⟨h1, h2⟩ := h.measurableCoat j (hs.2 e (List.mem_of_getElem? he)).2
      exact ⟨measurable_smul3 measurable_const h1, h2⟩
  | marg ks =>
    simp only [finF, finP]
    exact ⟨measurable_sum3 ks _ fun e he => measurable_smul3 measurable_const (h.measurableCoat j (hs.2 e he).2).1, measurable_sum1 ks _ fun e he => measurable_const.mul (h.measurableCoat j (hs.2 e he).2).2⟩
  | obj Kd Ks ax ay =>
    obtain ⟨a1, a2⟩ := h.measurableCoat j hs.1
    obtain ⟨b1, b2⟩ := h.measurableCoat j hs.2
    have hm : Measurable fun p => compMax (Kd (vertexAt ps sgn junk j p).geom) := by
      unfold compMax
      exact (((measurable_chan 0).comp hs.1.2).max ((measurable_chan 1).comp hs.1.2)).max ((measurable_chan 2).comp hs.1.2)
    have hw : Measurable fun p => partD (Kd (vertexAt ps sgn junk j p).geom) Ks := by
      unfold partD
      exact Measurable.ite ((measurableSet_eq_fun hm measurable_const).inter (MeasurableSet.const _)) measurable_const (hm.div (hm.add measurable_const))
    have hw' : Measurable fun q : V3 ℝ × V3 ℝ × V3 ℝ => partD (Kd (vertexAt ps sgn junk j q.1).geom) Ks := hw.comp measurable_fst
    exact ⟨measurable_add3 a1 b1, (hw'.mul a2).add ((measurable_const.sub hw').mul b2)⟩

theorem Room.measurable (h : Room W Q n cam ps sgn junk) {fin : Int → Finish} (hp : Paint W ps sgn junk fin) (j : Int) (c : ℕ) :
    Measurable (fun q : V3 ℝ × V3 ℝ × V3 ℝ => paintF ps sgn junk fin j c q.1 q.2.1 q.2.2) ∧ Measurable fun q : V3 ℝ × V3 ℝ × V3 ℝ => paintP ps sgn junk fin j c q.1 q.2.1 q.2.2 :=
  h.measurableFinish j (hp.sound j) c

/-- What rays meet: a point of a triangle, not at a grazing angle. -/
theorem Room.face (h : Room W Q n cam ps sgn junk) {o d : V3 ℝ} {hit : SI} (e : Q.isect o d = some hit) : (∃ a ∈ ps, hit.primitive = a.prim) ∧ V3.dot d hit.geom.n ≠ 0 := by
  obtain ⟨_, f, hf, s, hc, rfl, _⟩ := (h.traced.isect o d hit).mp e
  obtain ⟨a, ha, rfl⟩ := mem_faces.mp hf
  refine ⟨⟨a, ha, rfl⟩, ?_⟩
  show V3.dot d (normalAt ps a.prim (o + s • d)) ≠ 0
  rw [normalAt_eq h.separate ha hc.2.2]
  exact (frontNormal_unit (h.regular a ha) (h.size ha)).2.2 d hc.2.1

theorem Room.matte (h : Room W Q n cam ps sgn junk) {fin : Int → Finish} (hp : Paint W ps sgn junk fin) :
    Matte W Q n cam (faces ps) (vertexAt ps sgn junk) (fun j => (fin j).mat) (fun j => (fin j).comps) (paintF ps sgn junk fin) where
  camera := h.camera
  cameraAt := h.cameraAt
  proper := h.proper
  faceted := h.faceted
  face o d hit _ e := by
    obtain ⟨⟨a, ha, e1⟩, h2⟩ := h.face e
    exact ⟨prims_faces.mpr ⟨a, ha, e1.symm⟩, h2⟩
  surface j hj p := by
    obtain ⟨a, ha, rfl⟩ := prims_faces.mp hj
    exact ⟨rfl, h.on _ p, hp.material a ha⟩
  normal j := measurable_normalAt (fun a ha => h.size ha) j
  material j hj p wi hwi hg := by
    obtain ⟨h1, h2, _⟩ := Finish.ok (hp.sound j) p wi (h.on j p) hwi hg
    exact ⟨h1, h2⟩
  eval j hj c hc p wi wo hi ho hw := by
    obtain ⟨h1, h2, _⟩ := Finish.values (hp.sound j) hc p wi wo (h.on j p) hi ho hw
    exact ⟨h1, h2⟩
  measurable j c := (h.measurable hp j c).1
  reciprocal j hj c hc p wi wo hi ho hw hw' := Finish.reciprocal (hp.sound j) c p wi wo (h.on j p) hi ho hw hw'
  sight g hg := by
    filter_upwards [inside_ae g.2, plane_ae g.2 cam.w cam.position (h.tilted g hg)] with p hi hz
    refine ⟨hz, ?_⟩
    rw [h.traced.visible _ _ rfl rfl]
    have hd : V3.dot (triCross g.2) (p - cam.position) ≠ 0 := by
      obtain ⟨q, _, rfl⟩ := hi
      have : V3.dot (triCross g.2) (triAt g.2 q - cam.position) = V3.dot (triCross g.2) (g.2.a - cam.position) := by
        simp only [triCross, triAt, V3.dot, V3.cross, V3.add_x, V3.add_y, V3.add_z, V3.smul_x, V3.smul_y, V3.smul_z, V3.sub_x, V3.sub_y, V3.sub_z]; ring
      rw [this]; exact h.aside g hg
    rw [h.traced.sees_iff (fun j p => ⟨rfl, rfl⟩) hg hi hd]
    exact ⟨Unblocked.symm, Unblocked.symm⟩

variable {node : ℕ → Int} {M : ℕ → Aff ℝ} {lsgn : V3 ℝ → Bool} {ljunk : V3 ℝ} {Ke : ℕ → V3 ℝ} {ts : ℕ → List Tri}

theorem Lighting.lamps (hl : Lighting W ps node M lsgn ljunk Ke ts) (hs : Separate (faces ps)) : Lamps W (faces ps) (vertexAt ps sgn junk) node M lsgn ljunk Ke ts where
  table := hl.table
  size := hl.size
  nonneg := hl.nonneg
  only j hj L hL := by
    obtain ⟨a, ha, rfl⟩ := prims_faces.mp hj
    exact hl.only a ha L hL
  faces l h := by
    unfold faces
    rw [List.filter_map]
    have : ((fun f : Int × Tri => decide (f.1 = node l)) ∘ fun a : Part => (a.prim, triMap a.M a.t)) = fun a => decide (a.prim = node l) := rfl
    rw [this, hl.parts l h, List.map_map]
    rfl
  flat l h t ht p hi := by
    have hm : (⟨node l, M l, t⟩ : Part) ∈ ps := by
      have : (⟨node l, M l, t⟩ : Part) ∈ ps.filter (·.prim = node l) := by rw [hl.parts l h]; exact List.mem_map.mpr ⟨t, ht, rfl⟩
      exact (List.mem_filter.mp this).1
    exact normalAt_eq hs hm hi

theorem Room.lightVisible (h : Room W Q n cam ps sgn junk) (hl : Lighting W ps node M lsgn ljunk Ke ts) (sp : SI) (hf : sp.geom.infinite = false) (l : ℕ) (hll : l < W.st.lights.length) (g : Geom) (hg : g.infinite = false)
    (t : Tri) (ht : t ∈ ts l) (hi : Inside (triMap (M l) t) g.p) (hd : V3.dot (triCross (triMap (M l) t)) (g.p - sp.geom.p) ≠ 0) : Q.visible sp ⟨.light, node l, g⟩ = true ↔ SeesPoint Q (node l) sp.geom.p g.p := by
  have hm : (node l, triMap (M l) t) ∈ faces ps := by
    have : (⟨node l, M l, t⟩ : Part) ∈ ps.filter (·.prim = node l) := by rw [hl.parts l hll]; exact List.mem_map.mpr ⟨t, ht, rfl⟩
    exact mem_faces.mpr ⟨_, (List.mem_filter.mp this).1, rfl⟩
  rw [h.traced.visible _ _ hf hg, ← h.traced.sees_iff (fun j p => ⟨rfl, rfl⟩) hm hi hd]
  show hitOf Q sp.geom.p (dirOf (g.p - sp.geom.p)) = some (node l, g.p) ↔ ∃ hit, Q.isect sp.geom.p (dirOf (g.p - sp.geom.p)) = some hit ∧ hit.primitive = node l ∧ hit.geom.p = g.p
  unfold hitOf
  cases Q.isect sp.geom.p (dirOf (g.p - sp.geom.p)) <;> simp

theorem Room.unitOnly (h : Room W Q n cam ps sgn junk) (o d : V3 ℝ) (hd : V3.dot d d ≠ 1) : Q.isect o d = none := by
  cases e : Q.isect o d with
  | none => rfl
  | some hit => exact absurd ((h.traced.isect o d hit).mp e).1 hd

theorem Vertex.finite {sp : SI} {wi : V3 ℝ} (h : Vertex W Q n cam sp wi) : sp.geom.infinite = false := by
  rcases h with ⟨e, _⟩ | ⟨_, _, _, _, hf, _⟩
  · rw [e]; rfl
  · exact hf

/-- C82. The path tracer, in every scene of separate triangles with diffuse and glossy materials, mixtures of them (of either kind), materials of OBJ models, and area lights, in every sampling mode: its expected value on the film is the integral, over the film, of the radiance arriving along the primary
    rays by light paths with the given number of vertices. -/
theorem C82_scenes (h : Room W Q n cam ps sgn junk) {fin : Int → Finish} (hp : Paint W ps sgn junk fin) (hl : Lighting W ps node M lsgn ljunk Ke ts) (i : Fin 3)
    (cfg : Cfg) (dir : ℝ × ℝ → V3 ℝ) (hdir : ∀ q, primaryRay cam q.1 q.2 = some (dir q)) (H : ℝ × ℝ → ℝ≥0∞) (hH : Measurable H) (u : RaySampleU) (uc : ℝ) (rs : ℕ → Rnd) :
    average (cfg.maxVerts - 1) 1 rs (fun rs' => measured i H (ptSample W Q cfg u uc rs')) = ∫⁻ q, H q * (optics W Q i (compsAt fin)).incoming (cfg.maxVerts - 1) (camVertex W n cam) (dir q) ∂uniform2 :=
  C82_triangles (h.matte hp) (hl.lamps h.separate) i _ (fun _ _ _ _ => rfl) rfl h.unitOnly (fun sp _ hv l hll g hg t ht hi hd => h.lightVisible hl sp hv.finite l hll g hg t ht hi hd) cfg dir hdir H hH u uc rs

/-- C86. In every such scene light tracing, together with the lights that the camera sees, computes the same image as path tracing in any sampling mode. Missing: lights other than area lights
    (`C86_lt_partial`, `C86_beam_partial` and others treat them under requirements on intersections), shading normals, and specular materials. -/
theorem C86_scenes_partial (h : Room W Q n cam ps sgn junk) {fin : Int → Finish} (hp : Paint W ps sgn junk fin) (hl : Lighting W ps node M lsgn ljunk Ke ts) (i : Fin 3)
    (H : ℝ × ℝ → ℝ≥0∞) (hH : Measurable H) (N : ℕ) (hN : 2 ≤ N) (mode mode' : Mode) (px px' : Bool) (u : RaySampleU) (uc : ℝ) (rs : ℕ → Rnd) :
    averageLight (fun u => ∫⁻ uc, average (N - 2) 2 rs (fun rs' => measured i H (ltSample W Q N u uc rs')) ∂uniform1) + average 1 1 rs (fun rs' => measured i H (ptSample W Q ⟨mode', px', 2⟩ u uc rs')) =
      average (N - 1) 1 rs (fun rs' => measured i H (ptSample W Q ⟨mode, px, N⟩ u uc rs')) :=
  C86_all_modes_partial (h.matte hp) (hl.lamps h.separate) i (compsAt fin) (fun _ _ _ _ => rfl) rfl h.unitOnly (fun sp _ hv l hll g hg t ht hi hd => h.lightVisible hl sp hv.finite l hll g hg t ht hi hd) H hH N hN mode mode' px px' u uc rs

/-! ### Every list of separate triangles has such queries -/

theorem firstHit_unique {Fs : List (Int × Tri)} {vertex : Int → V3 ℝ → SI} (hs : Separate Fs) {o d : V3 ℝ} {h1 h2 : SI} (e1 : FirstHit Fs vertex o d h1) (e2 : FirstHit Fs vertex o d h2) : h1 = h2 := by
  obtain ⟨f, hf, s, hc, rfl, hm⟩ := e1
  obtain ⟨f', hf', s', hc', rfl, hm'⟩ := e2
  have : s = s' := le_antisymm (hm f' hf' s' hc') (hm' f hf s hc)
  subst this
  obtain ⟨k, hk⟩ := List.getElem?_of_mem hf
  obtain ⟨k', hk'⟩ := List.getElem?_of_mem hf'
  have := hs.apart k k' _ _ _ hk hk' hc.2.2 hc'.2.2
  subst this
  rw [hk] at hk'
  have : f = f' := Option.some.inj hk'
  rw [this]

open Classical in
/-- The nearest intersection. -/
noncomputable def traceQ (Fs : List (Int × Tri)) (vertex : Int → V3 ℝ → SI) : Query where
  isect o d := if h : V3.dot d d = 1 ∧ ∃ hit, FirstHit Fs vertex o d hit then some h.2.choose else none
  visible s1 s2 := decide (Unblocked Fs s1.geom.p s2.geom.p)

theorem traceQ_traced {Fs : List (Int × Tri)} (vertex : Int → V3 ℝ → SI) (hs : Separate Fs) : Traced (traceQ Fs vertex) Fs vertex where
  isect o d hit := by
    simp only [traceQ]
    split
    · rename_i h
      rw [Option.some.injEq]
      exact ⟨fun e => ⟨h.1, e ▸ h.2.choose_spec⟩, fun e => firstHit_unique hs h.2.choose_spec e.2⟩
    · rename_i h
      exact ⟨fun e => absurd e (by simp), fun e => absurd ⟨e.1, hit, e.2⟩ h⟩
  visible s1 s2 _ _ := by simp only [traceQ, decide_eq_true_iff]

/-- Rays that cross some triangle meet something. -/
theorem firstHit_exists {Fs : List (Int × Tri)} (vertex : Int → V3 ℝ → SI) {o d : V3 ℝ} {f : Int × Tri} (hf : f ∈ Fs) {s : ℝ} (hc : Crosses f.2 o d s) : ∃ h, FirstHit Fs vertex o d h := by
  classical
  let S : Finset (Int × Tri) := (List.finite_toSet (Fs.filter fun g => decide (d ∈ LM.Solid.seen g.2 o))).toFinset
  have hmem : ∀ g, g ∈ S ↔ g ∈ Fs ∧ d ∈ LM.Solid.seen g.2 o := fun g => by simp [S, List.mem_filter]
  obtain ⟨g, hg, hmin⟩ := S.exists_min_image (fun g => reachAt g.2 (o, d)) ⟨f, (hmem f).mpr ⟨hf, (crosses_iff.mp hc).1⟩⟩
  refine ⟨_, g, ((hmem g).mp hg).1, reachAt g.2 (o, d), crosses_iff.mpr ⟨((hmem g).mp hg).2, rfl⟩, rfl, fun g' hg' r hr => ?_⟩
  obtain ⟨h1, rfl⟩ := crosses_iff.mp hr
  exact hmin g' ((hmem g').mpr ⟨hg', h1⟩)

/-! ### Concrete scene: that of C86_Example with a third triangle, which hides a part of the lamp from above -/

noncomputable def shadeTri : Tri := ⟨⟨0, 0, -1 / 2⟩, ⟨0, 1 / 4, -1 / 2⟩, ⟨1 / 4, 0, -1 / 2⟩⟩

/-- The lamp is diffuse, the other triangles are glossy and diffuse. -/
noncomputable def exShiny : World := { exGlowing with
  material := fun k => if k = 0 then mixtureRR [(glossy (V3.all (1 / 2)) (1 / 4) (1 / 2), 1 / 3), (diffuse (fun _ => V3.all (1 / 2)), 2 / 3)] else diffuse (fun _ => V3.all (1 / 2)) }

noncomputable def exFin (j : Int) : Finish := if j = 2 then .mix [(.glossy (V3.all (1 / 2)) (1 / 4) (1 / 2), 1 / 3), (.diffuse fun _ => V3.all (1 / 2), 2 / 3)] else .plain (.diffuse fun _ => V3.all (1 / 2))

noncomputable def exParts : List Part := [⟨1, 1, glowTri⟩, ⟨2, 1, lampTri⟩, ⟨2, 1, shadeTri⟩]

theorem one_det : (1 : Aff ℝ).det = 1 := by simp [Aff.det, Aff.one_def, V3.cross, V3.dot]

theorem triMap_one (t : Tri) : triMap 1 t = t := by
  unfold triMap
  have h : ∀ p : V3 ℝ, (1 : Aff ℝ).app p = p := fun p => by ext <;> simp [Aff.app, Aff.lin, Aff.one_def]
  rw [h, h, h]

theorem exParts_faces : faces exParts = [(1, glowTri), (2, lampTri), (2, shadeTri)] := by simp [faces, exParts, triMap_one]

theorem shade_z {p : V3 ℝ} (h : Inside shadeTri p) : p.z = -1 / 2 := by
  obtain ⟨q, _, rfl⟩ := h
  simp only [triAt, shadeTri, V3.add_z, V3.smul_z, V3.sub_z]; ring

theorem exParts_separate : Separate (faces exParts) := by
  rw [exParts_faces]
  constructor
  · intro f hf
    have hc : triCross shadeTri = ⟨0, 0, -1 / 16⟩ := by ext <;> simp [triCross, shadeTri, V3.cross]; norm_num
    rcases (by simpa using hf : f = (1, glowTri) ∨ f = (2, lampTri) ∨ f = (2, shadeTri)) with rfl | rfl | rfl
    · show 0 < Real.sqrt _
      rw [glowTri_cross]; simp [V3.dot]
    · show 0 < Real.sqrt _
      rw [lampTri_cross]; simp [V3.dot]
    · show 0 < Real.sqrt _
      rw [hc]; simp only [V3.dot, Real.sqrt_pos]; norm_num
  · intro k k' f f' p hk hk' hi hi'
    have hz : ∀ (k : ℕ) (f : Int × Tri), ([(1, glowTri), (2, lampTri), (2, shadeTri)] : List (Int × Tri))[k]? = some f → Inside f.2 p → (k = 0 ∧ p.z = -1) ∨ (k = 1 ∧ p.z = 1) ∨ (k = 2 ∧ p.z = -1 / 2) := by
      intro k f hk hi
      match k, hk with
      | 0, hk => cases hk; exact .inl ⟨rfl, ((glowTri_inside _).mp hi).2.2.2⟩
      | 1, hk => cases hk; exact .inr (.inl ⟨rfl, ((lampTri_inside _).mp hi).2.2.2⟩)
      | 2, hk => cases hk; exact .inr (.inr ⟨rfl, shade_z hi⟩)
      | k + 3, hk => simp at hk
    rcases hz k f hk hi with ⟨rfl, h1⟩ | ⟨rfl, h1⟩ | ⟨rfl, h1⟩ <;> rcases hz k' f' hk' hi' with ⟨rfl, h2⟩ | ⟨rfl, h2⟩ | ⟨rfl, h2⟩ <;> first | rfl | (rw [h1] at h2; norm_num at h2)

noncomputable def exRoomQ : Query := traceQ (faces exParts) (vertexAt exParts (fun _ => false) 0)

theorem exRoom : Room exShiny exRoomQ 3 exCam exParts (fun _ => false) 0 where
  camera := rfl
  cameraAt := rfl
  proper := exCam_proper
  separate := exParts_separate
  regular a ha := by
    rcases (by simpa [exParts] using ha : a = ⟨1, 1, glowTri⟩ ∨ a = ⟨2, 1, lampTri⟩ ∨ a = ⟨2, 1, shadeTri⟩) with rfl | rfl | rfl <;> (show (1 : Aff ℝ).det ≠ 0; rw [one_det]; exact one_ne_zero)
  traced := traceQ_traced _ exParts_separate
  aside f hf := by
    rw [exParts_faces] at hf
    have hc : triCross shadeTri = ⟨0, 0, -1 / 16⟩ := by ext <;> simp [triCross, shadeTri, V3.cross]; norm_num
    rcases (by simpa using hf : f = (1, glowTri) ∨ f = (2, lampTri) ∨ f = (2, shadeTri)) with rfl | rfl | rfl
    · dsimp only; rw [glowTri_cross]; simp [V3.dot, glowTri, exCam]
    · dsimp only; rw [lampTri_cross]; simp [V3.dot, lampTri, exCam]
    · dsimp only; rw [hc]; simp [V3.dot, shadeTri, exCam]
  tilted f hf := by
    rw [exParts_faces] at hf
    rcases (by simpa using hf : f = (1, glowTri) ∨ f = (2, lampTri) ∨ f = (2, shadeTri)) with rfl | rfl | rfl <;> rintro ⟨h, _⟩ <;> simp [V3.dot, glowTri, lampTri, shadeTri, exCam] at h

theorem exPaint : Paint exShiny exParts (fun _ => false) 0 exFin where
  material a ha := by
    rcases (by simpa [exParts] using ha : a = ⟨1, 1, glowTri⟩ ∨ a = ⟨2, 1, lampTri⟩ ∨ a = ⟨2, 1, shadeTri⟩) with rfl | rfl | rfl <;> rfl
  sound j := by
    unfold exFin
    split
    · refine ⟨by simp, fun e he => ?_⟩
      rcases List.mem_cons.mp he with rfl | he
      · refine ⟨by norm_num, by norm_num, by norm_num, half_nonneg, ?_, ?_, ?_⟩ <;> simp [V3.all] <;> norm_num
      · rw [List.mem_singleton.mp he]
        exact ⟨by norm_num, fun _ => half_nonneg, measurable_const⟩
    · exact ⟨fun _ => half_nonneg, measurable_const⟩

theorem exLighting : Lighting exShiny exParts (fun _ => 1) (fun _ => 1) (fun _ => false) 0 (fun _ => V3.all 1) (fun _ => [glowTri]) where
  table := ⟨exGlow_table.1, exGlow_table.2, exGlow_table.3, exGlow_table.4⟩
  size := exGlow_lamps.size
  nonneg := exGlow_lamps.nonneg
  only a ha L hL := by
    rcases (by simpa [exParts] using ha : a = ⟨1, 1, glowTri⟩ ∨ a = ⟨2, 1, lampTri⟩ ∨ a = ⟨2, 1, shadeTri⟩) with rfl | rfl | rfl
    · exact ⟨0, one_pos, rfl⟩
    · have : exShiny.lightAt 2 = none := rfl
      rw [this] at hL; cases hL
    · have : exShiny.lightAt 2 = none := rfl
      rw [this] at hL; cases hL
  parts l hl := by simp [exParts]

/-- The theorems hold of this scene. -/
example (i : Fin 3) (mode : Mode) (px : Bool) (N : ℕ) (dir : ℝ × ℝ → V3 ℝ) (hdir : ∀ q, primaryRay exCam q.1 q.2 = some (dir q)) (H : ℝ × ℝ → ℝ≥0∞) (hH : Measurable H) (u : RaySampleU) (uc : ℝ) (rs : ℕ → Rnd) :
    average (N - 1) 1 rs (fun rs' => measured i H (ptSample exShiny exRoomQ ⟨mode, px, N⟩ u uc rs')) = ∫⁻ q, H q * (optics exShiny exRoomQ i (compsAt exFin)).incoming (N - 1) (camVertex exShiny 3 exCam) (dir q) ∂uniform2 :=
  C82_scenes exRoom exPaint exLighting i ⟨mode, px, N⟩ dir hdir H hH u uc rs

/-- The third triangle is seen from above where the lamp is not. -/
example : ∃ h, exRoomQ.isect ⟨1 / 16, 1 / 16, 0⟩ ⟨0, 0, -1⟩ = some h ∧ h.primitive = 2 := by
  have hc : triCross shadeTri = ⟨0, 0, -1 / 16⟩ := by ext <;> simp [triCross, shadeTri, V3.cross]; norm_num
  have hcr : Crosses shadeTri ⟨1 / 16, 1 / 16, 0⟩ ⟨0, 0, -1⟩ (1 / 2) := by
    refine ⟨by norm_num, by rw [hc]; simp [V3.dot], (1 / 4, 1 / 4), ⟨by norm_num, by norm_num, by norm_num⟩, ?_⟩
    ext <;> simp [triAt, shadeTri] <;> norm_num
  refine ⟨vertexAt exParts (fun _ => false) 0 2 _, (exRoom.traced.isect _ _ _).mpr ⟨by simp [V3.dot], (2, shadeTri), by rw [exParts_faces]; simp, 1 / 2, hcr, rfl, fun g hg r hr => ?_⟩, rfl⟩
  rw [exParts_faces] at hg
  have hz := hr.1
  rcases (by simpa using hg : g = (1, glowTri) ∨ g = (2, lampTri) ∨ g = (2, shadeTri)) with rfl | rfl | rfl
  · have := ((glowTri_inside _).mp hr.2.2).2.2.2
    simp at this; linarith
  · have := ((lampTri_inside _).mp hr.2.2).2.2.2
    simp at this; linarith
  · have := shade_z hr.2.2
    simp at this; linarith

end LM.Transport
