import Verif.Props.C86_Beam
/-
  C86: environment lights. Their rays have all directions, and start on disks perpendicular to their directions.
-/
namespace LM.Transport
open MeasureTheory LM LM.Surface LM.Material LM.Light LM.MathF LM.Path LM.Render LM.Solid Set
open scoped ENNReal

variable {Q : Query} {Fs : List (Int × Tri)} {vertex : Int → V3 ℝ → SI} {E : V3 ℝ → V3 ℝ} {sgn : V3 ℝ → Bool} {c : V3 ℝ} {r : ℝ}

/-- An environment light in a scene of triangles, of radiance E d in direction d, with rays from disks of radius r around c: the surfaces are in the sphere around c, and a point is met by the ray of direction d through it if
    nothing is between the point and infinity. -/
structure SkyLamp (Q : Query) (Fs : List (Int × Tri)) (E : V3 ℝ → V3 ℝ) (sgn : V3 ℝ → Bool) (c : V3 ℝ) (r : ℝ) : Prop where
  nonneg : ∀ d, V3.dot d d = 1 → NonNeg (E d)
  measurable : ∀ i, Measurable fun d => chan i (E d)
  pos : 0 < r
  /-- for almost all directions, rays of this direction sweep the surfaces -/
  swept : ∀ᵐ d ∂solidAngle, Swept Q Fs d c r
  seen : ∀ g ∈ Fs, ∀ᵐ p ∂triMeasure g.2, ∀ᵐ d ∂solidAngle, hitOf Q (p - (V3.dot (p - c) d + r) • d) d = some (g.1, p) ↔ hitOf Q p (-d) = none
  /-- the sign of a zero -/
  sign : MeasurableSet {d | sgn d = true}

open Classical in
/-- What arrives at x from direction w, from an environment light. -/
noncomputable def heaven (Q : Query) (w : V3 ℝ → ℝ≥0∞) (x : Spot) (d : V3 ℝ) : ℝ≥0∞ := if hitOf Q x.2 d = none then w (-d) else 0

theorem Faceted.measurable_none (h : Faceted Q Fs vertex) : MeasurableSet {q : V3 ℝ × V3 ℝ | hitOf Q q.1 q.2 = none} := by
  have e : {q : V3 ℝ × V3 ℝ | hitOf Q q.1 q.2 = none} = (⋃ j : Int, {q : V3 ℝ × V3 ℝ | ∃ p, hitOf Q q.1 q.2 = some (j, p)})ᶜ := by
    ext q
    simp only [mem_ofPred_eq, mem_compl_iff, mem_iUnion]
    cases e : hitOf Q q.1 q.2 with
    | none => simp
    | some x => simp only [reduceCtorEq, false_iff, not_not]; exact ⟨x.1, x.2, rfl⟩
  rw [e]
  exact (MeasurableSet.iUnion fun j => h.meets j).compl

theorem Faceted.measurable_heaven (h : Faceted Q Fs vertex) {w : V3 ℝ → ℝ≥0∞} (hw : Measurable w) : Adjoint.Meas (heaven Q w) := by
  classical
  have h1 : MeasurableSet {q : Spot × V3 ℝ | hitOf Q q.1.2 q.2 = none} := h.measurable_none.preimage ((measurable_snd.comp measurable_fst).prodMk measurable_snd)
  exact Measurable.ite h1 (hw.comp (measurable_neg3.comp measurable_snd)) measurable_const

/-- The point of the disk for direction d. -/
noncomputable def discOf (sgn : V3 ℝ → Bool) (c : V3 ℝ) (r : ℝ) (d : V3 ℝ) (q : ℝ × ℝ) : V3 ℝ := discAt (orthonormalBasis d (sgn d)).1 (orthonormalBasis d (sgn d)).2 c r d q

theorem measurable_discOf (hs : MeasurableSet {d | sgn d = true}) (c : V3 ℝ) (r : ℝ) : Measurable fun a : V3 ℝ × ℝ × ℝ => discOf sgn c r a.1 a.2 := by
  have hz : Measurable fun d : V3 ℝ => copysign1 d.z (sgn d) := by
    unfold copysign1
    exact Measurable.ite ((measurableSet_lt measurable_z measurable_const).union ((measurableSet_eq_fun measurable_z measurable_const).inter hs)) measurable_const measurable_const
  have ha : Measurable fun d : V3 ℝ => -1 / (copysign1 d.z (sgn d) + d.z) := measurable_const.div (hz.add measurable_z)
  have hb : Measurable fun d : V3 ℝ => d.x * d.y * (-1 / (copysign1 d.z (sgn d) + d.z)) := (measurable_x.mul measurable_y).mul ha
  have h1 : Measurable fun d : V3 ℝ => (orthonormalBasis d (sgn d)).1 := by
    unfold orthonormalBasis
    exact measurable_mk (measurable_const.add (((hz.mul measurable_x).mul measurable_x).mul ha)) (hz.mul hb) (hz.neg.mul measurable_x)
  have h2 : Measurable fun d : V3 ℝ => (orthonormalBasis d (sgn d)).2 := by
    unfold orthonormalBasis
    exact measurable_mk hb (hz.add ((measurable_y.mul measurable_y).mul ha)) measurable_y.neg
  unfold discOf discAt
  have hq1 : Measurable fun a : V3 ℝ × ℝ × ℝ => a.2.1 * r := (measurable_fst.comp measurable_snd).mul_const r
  have hq2 : Measurable fun a : V3 ℝ × ℝ × ℝ => a.2.2 * r := (measurable_snd.comp measurable_snd).mul_const r
  exact measurable_add3 (measurable_add3 measurable_const (measurable_smul3 measurable_const (measurable_neg3.comp measurable_fst)))
    (measurable_add3 (measurable_smul3 hq1 (h1.comp measurable_fst)) (measurable_smul3 hq2 (h2.comp measurable_fst)))

/-- What a ray from the disk carries, of F. -/
noncomputable def skyRay (Q : Query) (sgn : V3 ℝ → Bool) (c : V3 ℝ) (r : ℝ) (F : Spot → V3 ℝ → ℝ≥0∞) (d : V3 ℝ) (q : ℝ × ℝ) : ℝ≥0∞ := match hitOf Q (discOf sgn c r d q) d with
  | none => 0
  | some x => F x (-d)

theorem measurable_skyRay (hF : Faceted Q Fs vertex) (hs : MeasurableSet {d | sgn d = true}) (c : V3 ℝ) (r : ℝ) {F : Spot → V3 ℝ → ℝ≥0∞} (hFm : Adjoint.Meas F) : Measurable fun a : V3 ℝ × ℝ × ℝ => skyRay Q sgn c r F a.1 a.2 := by
  have h1 : Measurable fun q : (V3 ℝ × ℝ × ℝ) × Spot => F q.2 (-q.1.1) := hFm.comp (measurable_snd.prodMk (measurable_neg3.comp (measurable_fst.comp measurable_fst)))
  exact hF.measurable_hit (o := fun a : V3 ℝ × ℝ × ℝ => discOf sgn c r a.1 a.2) (d := fun a => a.1) (F := fun a x => F x (-a.1)) (measurable_discOf hs c r) measurable_fst h1

open Classical in
/-- What the ray of direction d through p carries to p, of F. -/
noncomputable def skyOn (Q : Query) (c : V3 ℝ) (r : ℝ) (w : V3 ℝ → ℝ≥0∞) (F : Spot → V3 ℝ → ℝ≥0∞) (g : Int × Tri) (d p : V3 ℝ) : ℝ≥0∞ :=
  ENNReal.ofReal |V3.dot (dirOf (triCross g.2)) d| * (w d * (if hitOf Q (p - (V3.dot (p - c) d + r) • d) d = some (g.1, p) then F (g.1, p) (-d) else 0))

theorem measurable_skyOn (hF : Faceted Q Fs vertex) (c : V3 ℝ) (r : ℝ) {w : V3 ℝ → ℝ≥0∞} (hw : Measurable w) {F : Spot → V3 ℝ → ℝ≥0∞} (hFm : Adjoint.Meas F) (g : Int × Tri) : Measurable fun a : V3 ℝ × V3 ℝ => skyOn Q c r w F g a.1 a.2 := by
  classical
  refine (continuous_abs.measurable.comp (measurable_dot3 measurable_const measurable_fst)).ennreal_ofReal.mul ((hw.comp measurable_fst).mul (Measurable.ite ?_ ?_ measurable_const))
  · exact hF.measurable_met g.1 (o := fun a : V3 ℝ × V3 ℝ => a.2 - (V3.dot (a.2 - c) a.1 + r) • a.1) (d := fun a => a.1) (p := fun a => a.2)
      (measurable_sub3' measurable_snd (measurable_smul3 ((measurable_dot3 (measurable_sub3' measurable_snd measurable_const) measurable_fst).add_const r) measurable_fst)) measurable_fst measurable_snd
  · exact hFm.comp ((measurable_const.prodMk measurable_snd).prodMk (measurable_neg3.comp measurable_fst))

/-- All rays of one direction. -/
theorem sky_parallel (hF : Faceted Q Fs vertex) (hs : MeasurableSet {d | sgn d = true}) {w : V3 ℝ → ℝ≥0∞} (hw : Measurable w) {F : Spot → V3 ℝ → ℝ≥0∞} (hFm : Adjoint.Meas F) {d : V3 ℝ} (h : Swept Q Fs d c r) :
    ∫⁻ p : ℝ × ℝ × ℝ, w d * skyRay Q sgn c r F d (sampleUniformDisk p.1 p.2.1) ∂uniform3 =
      ENNReal.ofReal (1 / Real.pi) * (ENNReal.ofReal (1 / (r * r)) * (Fs.map fun g => ∫⁻ p, skyOn Q c r w F g d p ∂triMeasure g.2).sum) := by
  classical
  have ho := C32_basis d (sgn d) h.unit
  have hJ := measurable_skyRay hF hs c r hFm
  have hJd : Measurable fun q : ℝ × ℝ => skyRay Q sgn c r F d q := Measurable.of_uncurry_left (f := skyRay Q sgn c r F) hJ
  have hFj : ∀ j, Measurable fun p : V3 ℝ => F (j, p) (-d) := fun j => hFm.comp ((measurable_const.prodMk measurable_id').prodMk measurable_const)
  rw [disk_average (f := fun q => w d * skyRay Q sgn c r F d q) (hJd.const_mul _), lintegral_const_mul _ hJd]
  have e4 : ∫⁻ q in {q : ℝ × ℝ | q.1 ^ 2 + q.2 ^ 2 ≤ 1}, skyRay Q sgn c r F d q = _ := h.over hF ho (F := fun x => F x (-d)) hFj
  rw [e4, List.sum_map_mul_left, mul_left_comm (w d), ← List.sum_map_mul_left]
  congr 3
  refine List.map_congr_left fun g hg => ?_
  have hm1 : Measurable fun p => ENNReal.ofReal |V3.dot (dirOf (triCross g.2)) d| * (if hitOf Q (p - (V3.dot (p - c) d + r) • d) d = some (g.1, p) then F (g.1, p) (-d) else 0) := by
    refine Measurable.const_mul (Measurable.ite ?_ (hFj g.1) measurable_const) _
    exact hF.measurable_met g.1 (measurable_sub3' measurable_id' (measurable_smul3 ((measurable_dot3 (measurable_sub3' measurable_id' measurable_const) measurable_const).add_const r) measurable_const)) measurable_const measurable_id'
  rw [← lintegral_const_mul _ hm1]
  refine lintegral_congr fun p => ?_
  unfold skyOn
  rw [mul_left_comm]

/-- All directions at one point. -/
theorem SkyLamp.all (hF : Faceted Q Fs vertex) (h : SkyLamp Q Fs E sgn c r) {w : V3 ℝ → ℝ≥0∞} (hw : Measurable w) {F : Spot → V3 ℝ → ℝ≥0∞} (hFm : Adjoint.Meas F) :
    (Fs.map fun g => ∫⁻ p, ∫⁻ d, skyOn Q c r w F g d p ∂solidAngle ∂triMeasure g.2).sum = Adjoint.pair (surf Fs) solidAngle (slant vertex) (heaven Q w) F := by
  have hsky := hF.measurable_heaven hw
  have hall : Measurable fun q : Spot × V3 ℝ => slant vertex q.1 q.2 * (heaven Q w q.1 q.2 * F q.1 q.2) := hF.measurable_slant.mul (hsky.mul hFm)
  unfold Adjoint.pair
  rw [lintegral_surf hall.lintegral_prod_right']
  refine congrArg List.sum (List.map_congr_left fun g hg => ?_)
  refine lintegral_congr_ae (((inside_ae g.2).and (h.seen g hg)).mono fun p hp => ?_)
  obtain ⟨hp, hv⟩ := hp
  beta_reduce
  have hx : Measurable fun d => slant vertex (g.1, p) d * (heaven Q w (g.1, p) d * F (g.1, p) d) := (hF.measurable_slant.from _).mul ((hsky.from _).mul (hFm.from _))
  rw [← lintegral_neg hx]
  refine lintegral_congr_ae (hv.mono fun d hd => ?_)
  beta_reduce
  unfold skyOn heaven
  rw [hF.slant_eq hg hp, V3.dot_neg_right, abs_neg]
  dsimp only
  rw [neg_neg]
  by_cases h0 : hitOf Q p (-d) = none
  · rw [if_pos (hd.mpr h0), if_pos h0]
  · rw [if_neg fun hc => h0 (hd.mp hc), if_neg h0, mul_zero, zero_mul]

/-- The rays of the light carry to the surfaces what arrives from infinity. -/
theorem SkyLamp.sweep (hF : Faceted Q Fs vertex) (h : SkyLamp Q Fs E sgn c r) {w : V3 ℝ → ℝ≥0∞} (hw : Measurable w) {F : Spot → V3 ℝ → ℝ≥0∞} (hFm : Adjoint.Meas F) :
    ∫⁻ p : ℝ × ℝ × ℝ, ∫⁻ q : ℝ × ℝ, w (sampleUniformSphere q.1 q.2) * skyRay Q sgn c r F (sampleUniformSphere q.1 q.2) (sampleUniformDisk p.1 p.2.1) ∂uniform2 ∂uniform3 =
      ENNReal.ofReal (1 / (4 * Real.pi)) * (ENNReal.ofReal (1 / Real.pi) * (ENNReal.ofReal (1 / (r * r)) * Adjoint.pair (surf Fs) solidAngle (slant vertex) (heaven Q w) F)) := by
  have hJ := measurable_skyRay hF h.sign c r hFm
  have hdk : Measurable fun p : ℝ × ℝ × ℝ => sampleUniformDisk p.1 p.2.1 := measurable_disk.comp (measurable_fst.prodMk (measurable_fst.comp measurable_snd))
  have hpd : Measurable fun a : V3 ℝ × ℝ × ℝ × ℝ => (a.1, sampleUniformDisk a.2.1 a.2.2.1) := measurable_fst.prodMk (hdk.comp measurable_snd)
  have hK : Measurable fun a : V3 ℝ × ℝ × ℝ × ℝ => w a.1 * skyRay Q sgn c r F a.1 (sampleUniformDisk a.2.1 a.2.2.1) := (hw.comp measurable_fst).mul (by have := hJ.comp hpd; simpa only [Function.comp_def] using this)
  have hK' : Measurable fun a : (ℝ × ℝ × ℝ) × ℝ × ℝ => w (sampleUniformSphere a.2.1 a.2.2) * skyRay Q sgn c r F (sampleUniformSphere a.2.1 a.2.2) (sampleUniformDisk a.1.1 a.1.2.1) :=
    (hw.comp (measurable_sphere.comp measurable_snd)).mul (by have := hJ.comp ((measurable_sphere.comp measurable_snd).prodMk (hdk.comp measurable_fst) : Measurable fun a : (ℝ × ℝ × ℝ) × ℝ × ℝ => (sampleUniformSphere a.2.1 a.2.2, sampleUniformDisk a.1.1 a.1.2.1)); simpa only [Function.comp_def] using this)
  have hsf : SFinite uniform3 := by unfold uniform3; infer_instance
  refine (lintegral_lintegral_swap hK'.aemeasurable).trans ?_
  have hΦ : Measurable fun d => ∫⁻ p : ℝ × ℝ × ℝ, w d * skyRay Q sgn c r F d (sampleUniformDisk p.1 p.2.1) ∂uniform3 := hK.lintegral_prod_right'
  refine (lintegral_map hΦ measurable_sphere).symm.trans ?_
  rw [C80_sphere, lintegral_smul_measure, smul_eq_mul]
  congr 1
  rw [lintegral_congr_ae (h.swept.mono fun d hd => sky_parallel hF h.sign hw hFm hd)]
  have hT := measurable_skyOn hF c r hw hFm
  have hTd : ∀ g : Int × Tri, Measurable fun d => ∫⁻ p, skyOn Q c r w F g d p ∂triMeasure g.2 := fun g => (hT g).lintegral_prod_right'
  have hTs : Measurable fun d => (Fs.map fun g => ∫⁻ p, skyOn Q c r w F g d p ∂triMeasure g.2).sum := by
    have e : ∀ gs : List (Int × Tri), Measurable fun d => (gs.map fun g => ∫⁻ p, skyOn Q c r w F g d p ∂triMeasure g.2).sum := fun gs => by
      induction gs with
      | nil => exact measurable_const
      | cons g gs ih => exact (hTd g).add ih
    exact e Fs
  rw [lintegral_const_mul _ (hTs.const_mul _), lintegral_const_mul _ hTs]
  congr 2
  rw [lintegral_list_sum _ _ Fs fun g _ => hTd g, ← h.all hF hw hFm]
  refine congrArg List.sum (List.map_congr_left fun g hg => ?_)
  exact lintegral_lintegral_swap (hT g).aemeasurable

/-- Points that do not have a property that almost all points of the surfaces have. -/
theorem null_cover {R : Spot → Prop} (hR : ∀ g ∈ Fs, ∀ᵐ p ∂triMeasure g.2, R (g.1, p)) :
    ∃ F : Spot → ℝ≥0∞, (∀ j, Measurable fun p => F (j, p)) ∧ (∀ g ∈ Fs, ∀ᵐ p ∂triMeasure g.2, F (g.1, p) = 0) ∧ ∀ x, ¬ R x → F x = 1 := by
  classical
  let μ : Int → Measure (V3 ℝ) := fun j => ((Fs.filter (·.1 = j)).map fun g => triMeasure g.2).sum
  have hμ : ∀ j, ∀ᵐ p ∂μ j, R (j, p) := fun j => by
    refine ae_map_sum _ (fun g : Int × Tri => triMeasure g.2) _ fun g hg => ?_
    obtain ⟨hg', e⟩ := List.mem_filter.mp hg
    have e : g.1 = j := by simpa using e
    have := hR g hg'
    rw [e] at this
    exact this
  let N : Int → Set (V3 ℝ) := fun j => toMeasurable (μ j) {p | ¬ R (j, p)}
  have hN0 : ∀ j, μ j (N j) = 0 := fun j => by
    show μ j (toMeasurable _ _) = 0
    rw [measure_toMeasurable]; exact ae_iff.mp (hμ j)
  have hNm : ∀ j, MeasurableSet (N j) := fun j => measurableSet_toMeasurable _ _
  have hNt : ∀ g ∈ Fs, triMeasure g.2 (N g.1) = 0 := fun g hg => by
    have h0 := hN0 g.1
    have e : ((Fs.filter (·.1 = g.1)).map fun g' => triMeasure g'.2 (N g.1)).sum = 0 := by rw [← map_sum_apply]; exact h0
    exact List.sum_eq_zero_iff.mp e _ (List.mem_map.mpr ⟨g, List.mem_filter.mpr ⟨hg, by simp⟩, rfl⟩)
  refine ⟨fun x => (N x.1).indicator (fun _ => 1) x.2, fun j => measurable_const.indicator (hNm j), fun g hg => ?_, fun x hx => ?_⟩
  · have hae : ∀ᵐ p ∂triMeasure g.2, p ∉ N g.1 := by rw [ae_iff]; simpa using hNt g hg
    exact hae.mono fun p hp => indicator_of_notMem hp _
  · exact indicator_of_mem (show x.2 ∈ N x.1 from subset_toMeasurable _ _ hx) _

/-- The rays of environment lights carry to the surfaces what arrives from infinity. -/
theorem SkyLamp.cast (hF : Faceted Q Fs vertex) (h : SkyLamp Q Fs E sgn c r) (i : Fin 3) (M : Aff ℝ) {L : Light} {junk : V3 ℝ}
    (hL : ∀ us : RayU, L.sampleRay us M = ray (makeInfinite (sampleUniformSphere us.ud0 us.ud1) (diskPoint sgn c r (sampleUniformSphere us.ud0 us.ud1) us) junk) (sampleUniformSphere us.ud0 us.ud1) (E (sampleUniformSphere us.ud0 us.ud1))
      ((pdfDisk r).map fun pA => pdfSphere * pA)) :
    Cast Q Fs vertex i M L (heaven Q fun d => ENNReal.ofReal (chan i (E d))) := by
  have hr := h.pos
  have hrr : 0 < Real.pi * r * r := mul_pos (mul_pos Real.pi_pos hr) hr
  have hw : Measurable fun d => ENNReal.ofReal (chan i (E d)) := (h.measurable i).ennreal_ofReal
  set k : ℝ := 1 / (1 / (4 * Real.pi) * (1 / (Real.pi * r * r))) with hk
  have hk0 : 0 ≤ k := by have := Real.pi_pos; positivity
  have hone : ∀ us : RayU, L.sampleRay us M = .ok (makeInfinite (sampleUniformSphere us.ud0 us.ud1) (discOf sgn c r (sampleUniformSphere us.ud0 us.ud1) (sampleUniformDisk us.up0 us.up1)) junk) (sampleUniformSphere us.ud0 us.ud1)
      (k • E (sampleUniformSphere us.ud0 us.ud1)) := fun us => by
    have hne : (1 / (4 * Real.pi)) * (1 / (Real.pi * r * r)) ≠ 0 := by have := Real.pi_pos; positivity
    rw [hL]
    simp only [pdfDisk, divF, hrr.ne', if_false, ray, Option.map_some, pdfSphere, divV, hne]
    rfl
  have hback : ∀ (F : Spot → V3 ℝ → ℝ≥0∞) (d : V3 ℝ) (q : ℝ × ℝ), Adjoint.back (fun x d => hitOf Q x.2 d) F (0, (makeInfinite d (discOf sgn c r d q) junk).p) d = skyRay Q sgn c r F d q := fun F d q => by
    unfold Adjoint.back skyRay
    have e : (makeInfinite d (discOf sgn c r d q) junk).p = discOf sgn c r d q := rfl
    dsimp only
    rw [e]
    cases hitOf Q (discOf sgn c r d q) d <;> rfl
  refine ⟨hF.measurable_heaven hw, fun F hFm => ?_, fun R hR => ?_⟩
  · simp_rw [hone]
    simp only [worthRay, chan_smul, hback, ENNReal.ofReal_mul hk0, mul_assoc]
    simp_rw [lintegral_const_mul' _ _ (ENNReal.ofReal_ne_top (r := k))]
    rw [h.sweep hF hw hFm, ← mul_assoc, ← mul_assoc, ← mul_assoc, ← ENNReal.ofReal_mul hk0, ← ENNReal.ofReal_mul (by have := Real.pi_pos; positivity), ← ENNReal.ofReal_mul (by have := Real.pi_pos; positivity)]
    have : k * (1 / (4 * Real.pi)) * (1 / Real.pi) * (1 / (r * r)) = 1 := by
      rw [hk]; have := Real.pi_pos.ne'; field_simp
    rw [this, ENNReal.ofReal_one, one_mul]
  · obtain ⟨F, hFj, hF0, hF1⟩ := null_cover hR
    have hFm : Adjoint.Meas fun (x : Spot) (_ : V3 ℝ) => F x := measurable_spot (F := fun x (_ : V3 ℝ) => F x) fun j => (hFj j).comp measurable_fst
    have hz := h.sweep hF (w := fun _ => 1) measurable_const hFm
    have hp : Adjoint.pair (surf Fs) solidAngle (slant vertex) (heaven Q fun _ => 1) (fun x _ => F x) = 0 := by
      have hall : Measurable fun q : Spot × V3 ℝ => slant vertex q.1 q.2 * (heaven Q (fun _ => 1) q.1 q.2 * F q.1) := hF.measurable_slant.mul ((hF.measurable_heaven measurable_const).mul hFm)
      unfold Adjoint.pair
      rw [lintegral_surf hall.lintegral_prod_right']
      refine List.sum_eq_zero fun y hy => ?_
      obtain ⟨g, hg, rfl⟩ := List.mem_map.mp hy
      rw [lintegral_congr_ae ((hF0 g hg).mono fun p hp => ?_), lintegral_zero]
      simp only [hp, mul_zero, lintegral_zero]
    rw [hp, mul_zero, mul_zero, mul_zero] at hz
    have hJ := measurable_skyRay hF h.sign c r hFm
    have hdk : Measurable fun p : ℝ × ℝ × ℝ => sampleUniformDisk p.1 p.2.1 := measurable_disk.comp (measurable_fst.prodMk (measurable_fst.comp measurable_snd))
    have hK' : Measurable fun a : (ℝ × ℝ × ℝ) × ℝ × ℝ => 1 * skyRay Q sgn c r (fun x _ => F x) (sampleUniformSphere a.2.1 a.2.2) (sampleUniformDisk a.1.1 a.1.2.1) :=
      Measurable.const_mul (by have := hJ.comp ((measurable_sphere.comp measurable_snd).prodMk (hdk.comp measurable_fst) : Measurable fun a : (ℝ × ℝ × ℝ) × ℝ × ℝ => (sampleUniformSphere a.2.1 a.2.2, sampleUniformDisk a.1.1 a.1.2.1)); simpa only [Function.comp_def] using this) _
    have hK2 : Measurable fun p : ℝ × ℝ × ℝ => ∫⁻ q : ℝ × ℝ, 1 * skyRay Q sgn c r (fun x _ => F x) (sampleUniformSphere q.1 q.2) (sampleUniformDisk p.1 p.2.1) ∂uniform2 := hK'.lintegral_prod_right'
    rw [lintegral_eq_zero_iff hK2] at hz
    refine hz.mono fun p hp => ?_
    have hK3 : Measurable fun q : ℝ × ℝ => 1 * skyRay Q sgn c r (fun x _ => F x) (sampleUniformSphere q.1 q.2) (sampleUniformDisk p.1 p.2.1) :=
      Measurable.of_uncurry_left (f := fun (p : ℝ × ℝ × ℝ) (q : ℝ × ℝ) => 1 * skyRay Q sgn c r (fun x _ => F x) (sampleUniformSphere q.1 q.2) (sampleUniformDisk p.1 p.2.1)) hK'
    have hp : ∫⁻ q : ℝ × ℝ, 1 * skyRay Q sgn c r (fun x _ => F x) (sampleUniformSphere q.1 q.2) (sampleUniformDisk p.1 p.2.1) ∂uniform2 = 0 := hp
    rw [lintegral_eq_zero_iff hK3] at hp
    filter_upwards [hp, int2_ae] with q hq hu
    have hun := (C34_sphere q.1 q.2 hu.1.1 hu.1.2.le).1
    refine ⟨_, _, _, hone _, nonneg_smul hk0 (h.nonneg _ hun), hun, fun x hx => ?_⟩
    by_contra hc
    have hx' : hitOf Q (discOf sgn c r (sampleUniformSphere q.1 q.2) (sampleUniformDisk p.1 p.2.1)) (sampleUniformSphere q.1 q.2) = some x := hx
    have : skyRay Q sgn c r (fun x _ => F x) (sampleUniformSphere q.1 q.2) (sampleUniformDisk p.1 p.2.1) = F x := by
      unfold skyRay
      rw [hx']
    rw [this, hF1 x hc] at hq
    simp at hq

/-- Constant environment lights. -/
theorem SkyLamp.envconst {Le junk : V3 ℝ} (hF : Faceted Q Fs vertex) (h : SkyLamp Q Fs (fun _ => Le) sgn c r) (i : Fin 3) (M : Aff ℝ) :
    Cast Q Fs vertex i M (Light.envconst sgn junk Le c r) (heaven Q fun _ => ENNReal.ofReal (chan i Le)) := h.cast hF i M (junk := junk) fun _ => rfl

/-- Environment maps. -/
theorem SkyLamp.env {tex : ℝ → ℝ → V3 ℝ} {d2 : Dist.Dist2 ℝ} {rot : ℝ} {junk : V3 ℝ} (hF : Faceted Q Fs vertex) (h : SkyLamp Q Fs (fun d => envEval tex rot (makeInfinite d junk junk)) sgn c r) (i : Fin 3) (M : Aff ℝ) :
    Cast Q Fs vertex i M (Light.env sgn junk tex d2 rot c r) (heaven Q fun d => ENNReal.ofReal (chan i (envEval tex rot (makeInfinite d junk junk)))) := h.cast hF i M (junk := junk) fun _ => rfl

/-- What arrives from infinity, if a light surrounds the scene. -/
theorem fromSky_heaven {W : World} {i : Fin 3} (hall : ∀ o d, V3.dot d d = 1 → Q.isect o d ≠ none) (hE : ∀ o d s, V3.dot d d = 1 → Q.isect o d = some s → s.geom.infinite = true → emitted W i s (-d) = ENNReal.ofReal (chan i (E (-d))))
    (x : Spot) {d : V3 ℝ} (hd : V3.dot d d = 1) : fromSky W Q i x.2 d = heaven (finite Q) (fun d => ENNReal.ofReal (chan i (E d))) x d := by
  unfold fromSky heaven
  cases hi : Q.isect x.2 d with
  | none => exact absurd hi (hall _ _ hd)
  | some s =>
    have hn := finite_some hi
    dsimp only
    cases hs : s.geom.infinite with
    | true =>
      rw [hs, if_pos rfl] at hn
      rw [if_pos rfl, if_pos (by simp [hitOf, hn]), hE _ _ _ hd hi hs]
    | false =>
      rw [hs] at hn
      simp only [Bool.false_eq_true, if_false] at hn ⊢
      rw [if_neg (by simp [hitOf, hn])]

end LM.Transport
