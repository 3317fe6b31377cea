import Verif.Props.C80_Area
/-
  C80: next event estimation towards area lights: the sampled point has the density pdf_direct, converted to the solid angle at the shading point.
-/
namespace LM.Solid
open MeasureTheory LM Set LM.MathF LM.Surface LM.Material LM.Light
open scoped ENNReal Real

theorem cosOf_nonneg (g : Geom) (d : V3 ℝ) : 0 ≤ cosOf g d := by unfold cosOf; split <;> positivity

/-- The density reported for a point at distance r in direction d. -/
theorem pdf_val {ts : List Tri} {M : Aff ℝ} {i : ℝ} (hi : transformedInvA ts M = some i) {g : Geom} (hf : g.infinite = false) (n junk : V3 ℝ) (s : Bool) {d : V3 ℝ} (hd : V3.dot d d = 1) {r : ℝ} (hr : 0 < r) :
    areaPdfDirect ts g (makeOnSurface (g.p + r • d) n n s junk) M (-d) = some (if V3.dot d n < 0 ∧ cosOf g d ≠ 0 then i * r ^ 2 / (cosOf g d * |V3.dot d n|) else 0) := by
  have hdn : V3.dot (-d) n = -V3.dot d n := by simp [V3.dot]; ring
  have hn : (makeOnSurface (g.p + r • d) n n s junk).n = n := rfl
  have hL : V3.dot (r • d) (r • d) = r * r := by
    have : V3.dot (r • d) (r • d) = r * r * V3.dot d d := by simp [V3.dot]; ring
    rw [this, hd, mul_one]
  have hG : geometryTerm g (makeOnSurface (g.p + r • d) n n s junk) = some (cosOf g d * |V3.dot d n| / (r * r)) := by
    have e1 : (makeOnSurface (g.p + r • d) n n s junk).p - g.p = r • d := by show g.p + r • d - g.p = _; abel
    have e2 : (1 / Real.sqrt (r * r)) • (r • d) = d := by rw [Real.sqrt_mul_self hr.le, smul_smul, one_div, inv_mul_cancel₀ hr.ne', one_smul]
    unfold geometryTerm
    rw [e1]
    have h0 : r * r ≠ 0 := by positivity
    simp only [hL, e2, hf, makeOnSurface, Bool.false_and, Bool.false_eq_true, if_false, Bool.or_self, h0, Bool.or_false, cosOf, V3.dot_comm g.n d, V3.dot_neg_right, abs_neg, V3.dot_comm n d]
  unfold areaPdfDirect
  rw [hn, hdn]
  by_cases h1 : V3.dot d n < 0
  · rw [if_neg (by linarith), hi, hG]
    simp only [Option.bind_some, overG, Option.map_some, h1, true_and]
    have h2 : |V3.dot d n| ≠ 0 := abs_ne_zero.mpr h1.ne
    by_cases h3 : cosOf g d = 0
    · simp [h3]
    · rw [if_neg (by positivity), if_pos h3, div_div_eq_mul_div]
      congr 2
      ring
  · rw [if_pos (by linarith), if_neg (fun h => h1 h.1)]

theorem frontNormal_par (M : Aff ℝ) (hM : M.det ≠ 0) (t : Tri) : ∃ k : ℝ, frontNormal M t = k • triCross (triMap M t) ∧ (0 < twiceArea (triMap M t) → |k| * twiceArea (triMap M t) = 1) := by
  have e : M.normalM (triCross t) = (1 / M.det) • triCross (triMap M t) := by
    have h := C74_triangle_normal M hM (t.b - t.a) (t.c - t.a)
    have h1 : M.lin (t.b - t.a) = (triMap M t).b - (triMap M t).a := by simp only [triMap, Aff.app, Aff.lin]; ext <;> simp <;> ring
    have h2 : M.lin (t.c - t.a) = (triMap M t).c - (triMap M t).a := by simp only [triMap, Aff.app, Aff.lin]; ext <;> simp <;> ring
    rw [h1, h2] at h
    show M.normalM (V3.cross (t.b - t.a) (t.c - t.a)) = (1 / M.det) • V3.cross ((triMap M t).b - (triMap M t).a) ((triMap M t).c - (triMap M t).a)
    rw [← h, smul_smul, one_div, inv_mul_cancel₀ hM, one_smul]
  refine ⟨1 / Real.sqrt (V3.dot (M.normalM (triCross t)) (M.normalM (triCross t))) * (1 / M.det), ?_, fun hp => ?_⟩
  · unfold frontNormal dirOf
    rw [← smul_smul, ← e]
  · set N := triCross (triMap M t) with hN
    have e2 : V3.dot ((1 / M.det) • N) ((1 / M.det) • N) = (1 / M.det) ^ 2 * V3.dot N N := by simp [V3.dot]; ring
    rw [e, e2, Real.sqrt_mul (by positivity), Real.sqrt_sq_eq_abs]
    have : twiceArea (triMap M t) = Real.sqrt (V3.dot N N) := rfl
    rw [← this, abs_mul, abs_div, abs_one, abs_mul, abs_abs, abs_of_pos hp]
    have := abs_pos.mpr hM
    rw [abs_div, abs_one]
    field_simp

theorem planePt_tri (t : Tri) (x : V3 ℝ) (q : ℝ × ℝ) : planePt (t.b - t.a) (t.c - t.a) (t.a - x) q = triAt t q - x := by
  unfold planePt triAt
  ext <;> simp <;> ring

/-- The barycentric coordinates of the point seen in direction d. -/
noncomputable def coords (t : Tri) (x d : V3 ℝ) : ℝ × ℝ :=
  (V3.dot (V3.cross (t.c - t.a) (t.a - x)) d / V3.dot (triCross t) d, V3.dot (V3.cross (t.a - x) (t.b - t.a)) d / V3.dot (triCross t) d)

theorem measurable_cdot (n : V3 ℝ) : Measurable fun d : V3 ℝ => V3.dot n d := by simp_rw [V3.dot_comm n]; exact measurable_dotc n

theorem measurable_coords (t : Tri) (x : V3 ℝ) : Measurable (coords t x) :=
  ((measurable_cdot _).div (measurable_cdot _)).prodMk ((measurable_cdot _).div (measurable_cdot _))

theorem coords_at (t : Tri) (x : V3 ℝ) (hD : V3.dot (triCross t) (t.a - x) ≠ 0) {s : ℝ} (hs : s ≠ 0) (d : V3 ℝ) (q : ℝ × ℝ) (h : x + s • d = triAt t q) :
    coords t x d = q ∧ V3.dot (triCross t) d = V3.dot (triCross t) (t.a - x) / s := by
  have hd : d = (1 / s) • (triAt t q - x) := by
    rw [← h, add_sub_cancel_left, smul_smul, one_div, inv_mul_cancel₀ hs, one_smul]
  have e0 : V3.dot (triCross t) d = V3.dot (triCross t) (t.a - x) / s := by
    rw [hd]; simp only [triCross, triAt, V3.dot, V3.cross, V3.add_x, V3.add_y, V3.add_z, V3.smul_x, V3.smul_y, V3.smul_z, V3.sub_x, V3.sub_y, V3.sub_z]; ring
  have e1 : V3.dot (V3.cross (t.c - t.a) (t.a - x)) d = q.1 * V3.dot (triCross t) (t.a - x) / s := by
    rw [hd]; simp only [triCross, triAt, V3.dot, V3.cross, V3.add_x, V3.add_y, V3.add_z, V3.smul_x, V3.smul_y, V3.smul_z, V3.sub_x, V3.sub_y, V3.sub_z]; ring
  have e2 : V3.dot (V3.cross (t.a - x) (t.b - t.a)) d = q.2 * V3.dot (triCross t) (t.a - x) / s := by
    rw [hd]; simp only [triCross, triAt, V3.dot, V3.cross, V3.add_x, V3.add_y, V3.add_z, V3.smul_x, V3.smul_y, V3.smul_z, V3.sub_x, V3.sub_y, V3.sub_z]; ring
  refine ⟨?_, e0⟩
  unfold coords
  rw [e0, e1, e2]
  ext
  · simp only; field_simp
  · simp only; field_simp

theorem at_coords (t : Tri) (x d : V3 ℝ) (hN : V3.dot (triCross t) d ≠ 0) : x + (V3.dot (triCross t) (t.a - x) / V3.dot (triCross t) d) • d = triAt t (coords t x d) := by
  have key : V3.dot (triCross t) (t.a - x) • d = V3.dot (V3.cross (t.c - t.a) (t.a - x)) d • (t.b - t.a) + V3.dot (V3.cross (t.a - x) (t.b - t.a)) d • (t.c - t.a) + V3.dot (triCross t) d • (t.a - x) := by
    ext <;> simp only [triCross, V3.dot, V3.cross, V3.add_x, V3.add_y, V3.add_z, V3.smul_x, V3.smul_y, V3.smul_z, V3.sub_x, V3.sub_y, V3.sub_z] <;> ring
  set D := V3.dot (triCross t) (t.a - x)
  set n := V3.dot (triCross t) d
  have e : (D / n) • d = (1 / n) • (D • d) := by rw [smul_smul]; congr 1; ring
  rw [e, key]
  unfold triAt coords
  rw [show V3.dot (triCross t) d = n from rfl]
  ext <;> simp only [V3.add_x, V3.add_y, V3.add_z, V3.smul_x, V3.smul_y, V3.smul_z, V3.sub_x, V3.sub_y, V3.sub_z] <;> field_simp <;> ring

theorem mem_hitSet (t : Tri) (x d : V3 ℝ) (hD : V3.dot (triCross t) (t.a - x) ≠ 0) : d ∈ hitSet t x ↔ 0 < V3.dot (triCross t) d * V3.dot (triCross t) (t.a - x) ∧ coords t x d ∈ simplex := by
  constructor
  · rintro ⟨s, hs, q, hq, h⟩
    obtain ⟨e1, e2⟩ := coords_at t x hD hs.ne' d q h
    refine ⟨?_, by rw [e1]; exact hq⟩
    rw [e2, div_mul_eq_mul_div]
    exact div_pos (mul_self_pos.mpr hD) hs
  · rintro ⟨h1, h2⟩
    have hN : V3.dot (triCross t) d ≠ 0 := by rintro e; simp [e] at h1
    refine ⟨_, ?_, _, h2, at_coords t x d hN⟩
    rcases mul_pos_iff.mp h1 with ⟨a, b⟩ | ⟨a, b⟩
    · exact div_pos b a
    · exact div_pos_of_neg_of_neg b a

/-- The point hitPoint is the one that is seen. -/
theorem hitPoint_spec (t : Tri) (x d : V3 ℝ) (hD : V3.dot (triCross t) (t.a - x) ≠ 0) (h : d ∈ hitSet t x) : ∃ s : ℝ, 0 < s ∧ hitPoint t x d = x + s • d ∧ ∃ q ∈ simplex, hitPoint t x d = triAt t q := by
  obtain ⟨s, hs, q, hq, e⟩ := h
  obtain ⟨e1, e2⟩ := coords_at t x hD hs.ne' d q e
  have : hitPoint t x d = x + s • d := by
    unfold hitPoint
    rw [e2, div_div_cancel₀ hD]
  exact ⟨s, hs, this, q, hq, by rw [this, e]⟩

/-- The barycentric coordinates for which the point is sampled successfully and lies in A. -/
def directSet (T : Tri) (n : V3 ℝ) (g : Geom) (A : Set (V3 ℝ)) : Set (ℝ × ℝ) :=
  {q | triAt T q ∈ A ∧ V3.dot (dirOf (triAt T q - g.p)) n < 0 ∧ cosOf g (dirOf (triAt T q - g.p)) ≠ 0}

theorem measurable_sub3 (x : V3 ℝ) : Measurable fun p : V3 ℝ => p - x :=
  measurable_mk (f := fun p : V3 ℝ => p - x) (measurable_x.sub_const _) (measurable_y.sub_const _) (measurable_z.sub_const _)

theorem measurableSet_directSet (T : Tri) (n : V3 ℝ) (g : Geom) {A : Set (V3 ℝ)} (hA : MeasurableSet A) : MeasurableSet (directSet T n g A) := by
  have hd : Measurable fun q => dirOf (triAt T q - g.p) := measurable_dirOf.comp ((measurable_sub3 _).comp (measurable_triAt T))
  exact (measurable_triAt T hA).inter ((measurableSet_lt ((measurable_dotc n).comp hd) measurable_const).inter ((measurableSet_eq_fun ((measurable_cosOf g).comp hd) measurable_const).compl))

theorem dirOf_spec {v : V3 ℝ} (h : 0 < V3.dot v v) : V3.dot (dirOf v) (dirOf v) = 1 ∧ v = Real.sqrt (V3.dot v v) • dirOf v := by
  have hs : 0 < Real.sqrt (V3.dot v v) := Real.sqrt_pos.mpr h
  unfold dirOf
  constructor
  · have : V3.dot ((1 / Real.sqrt (V3.dot v v)) • v) ((1 / Real.sqrt (V3.dot v v)) • v) = (1 / Real.sqrt (V3.dot v v)) * (1 / Real.sqrt (V3.dot v v)) * V3.dot v v := by simp [V3.dot]; ring
    rw [this]
    have e := Real.mul_self_sqrt h.le
    rw [div_mul_div_comm, one_mul, e, one_div, inv_mul_cancel₀ h.ne']
  · rw [smul_smul, mul_one_div_cancel hs.ne', one_smul]

/-- The integral of the reported density over the directions in which g sees the part A of one triangle. -/
theorem tri_direct {ts : List Tri} {M : Aff ℝ} {i : ℝ} (hi : transformedInvA ts M = some i) (hi0 : 0 ≤ i) {g : Geom} (hf : g.infinite = false) (T : Tri) (n junk : V3 ℝ) (s : Bool) (k : ℝ) (hk : n = k • triCross T)
    (hk1 : 0 < twiceArea T → |k| * twiceArea T = 1) {A : Set (V3 ℝ)} (hA : MeasurableSet A) :
    ∫⁻ d, {d | d ∈ hitSet T g.p ∧ hitPoint T g.p d ∈ A}.indicator (fun d => dens (areaPdfDirect ts g (makeOnSurface (hitPoint T g.p d) n n s junk) M (-d))) d ∂solidAngleAt g =
      ENNReal.ofReal (i * twiceArea T) * volume (directSet T n g A ∩ simplex) := by
  set D := V3.dot (triCross T) (T.a - g.p) with hD
  set H : V3 ℝ → ℝ≥0∞ := {d | d ∈ hitSet T g.p ∧ hitPoint T g.p d ∈ A}.indicator (fun d => dens (areaPdfDirect ts g (makeOnSurface (hitPoint T g.p d) n n s junk) M (-d))) with hH
  have e0 : ∫⁻ d, H d ∂solidAngleAt g = ∫⁻ d, ENNReal.ofReal (cosOf g d) * H d ∂solidAngle := by
    have := lintegral_solidAngleAt (g := g) MeasurableSet.univ H
    simpa only [Measure.restrict_univ] using this
  rw [e0]
  have hPN : ∀ q, V3.dot (triCross T) (triAt T q - g.p) = D := by
    intro q
    simp only [hD, triCross, triAt, V3.dot, V3.cross, V3.add_x, V3.add_y, V3.add_z, V3.smul_x, V3.smul_y, V3.smul_z, V3.sub_x, V3.sub_y, V3.sub_z]; ring
  have hdn : ∀ d, V3.dot d n = k * V3.dot (triCross T) d := by
    intro d; rw [hk, V3.dot_smul_right, V3.dot_comm]
  by_cases hD0 : D = 0
  · -- seen edge on
    have h1 : ∀ d, ENNReal.ofReal (cosOf g d) * H d = 0 := by
      intro d
      by_cases hd : d ∈ {d | d ∈ hitSet T g.p ∧ hitPoint T g.p d ∈ A}
      · rw [hH, indicator_of_mem hd]
        obtain ⟨r, hr, q, _, e⟩ := hd.1
        have : V3.dot (triCross T) d = 0 := by
          have h2 := hPN q
          rw [← e, add_sub_cancel_left, V3.dot_smul_right, hD0] at h2
          exact (mul_eq_zero.mp h2).resolve_left hr.ne'
        have h3 : V3.dot (-d) n = 0 := by
          have : V3.dot (-d) n = -V3.dot d n := by simp [V3.dot]; ring
          rw [this, hdn]; simp [*]
        have : areaPdfDirect ts g (makeOnSurface (hitPoint T g.p d) n n s junk) M (-d) = some 0 := by
          unfold areaPdfDirect
          exact if_pos h3.le
        rw [this]; simp [dens]
      · rw [hH, indicator_of_notMem hd, mul_zero]
    simp only [h1, lintegral_zero]
    have h2 : directSet T n g A = ∅ := by
      ext q
      simp only [directSet, mem_ofPred_eq, mem_empty_iff_false, iff_false]
      rintro ⟨_, h, _⟩
      rw [hdn] at h
      unfold dirOf at h
      rw [V3.dot_smul_right, hPN, hD0] at h
      simp at h
    rw [h2]; simp
  · have hN0 : 0 < twiceArea T := by
      unfold twiceArea
      refine Real.sqrt_pos.mpr ?_
      have h : V3.dot (T.a - g.p) (triCross T) ≠ 0 := by rw [V3.dot_comm]; exact hD0
      exact dot_pos_of_ne h
    have hkk := hk1 hN0
    have hk0 : k ≠ 0 := by rintro rfl; simp at hkk
    set S : Set (V3 ℝ) := {d | 0 < V3.dot (triCross T) d * D ∧ coords T g.p d ∈ simplex ∧ triAt T (coords T g.p d) ∈ A ∧ V3.dot d n < 0 ∧ cosOf g d ≠ 0} with hS
    have hSm : MeasurableSet S := by
      have hc := measurable_coords T g.p
      exact (measurableSet_lt measurable_const ((measurable_cdot _).mul_const _)).inter ((hc measurableSet_simplex).inter (((measurable_triAt T).comp hc hA).inter ((measurableSet_lt (measurable_dotc n) measurable_const).inter ((measurableSet_eq_fun (measurable_cosOf g) measurable_const).compl))))
    set F : V3 ℝ → ℝ≥0∞ := S.indicator fun d => ENNReal.ofReal (i * (D / V3.dot (triCross T) d) ^ 2 / |V3.dot d n|) with hF
    have hFm : Measurable F := by
      refine Measurable.indicator (Measurable.ennreal_ofReal ?_) hSm
      exact (((measurable_const.div (measurable_cdot _)).pow_const 2).const_mul i).div (continuous_abs.measurable.comp (measurable_dotc n))
    have e1 : ∫⁻ d, ENNReal.ofReal (cosOf g d) * H d ∂solidAngle = ∫⁻ d, F d ∂solidAngle := by
      refine lintegral_congr_ae (solidAngle_unit.mono fun d hd => ?_)
      beta_reduce
      by_cases hh : d ∈ hitSet T g.p
      · obtain ⟨h1, h2⟩ := (mem_hitSet T g.p d hD0).mp hh
        have hNd : V3.dot (triCross T) d ≠ 0 := by rintro e; simp [e] at h1
        have hr : 0 < D / V3.dot (triCross T) d := by
          rcases mul_pos_iff.mp h1 with ⟨a, b⟩ | ⟨a, b⟩
          · exact div_pos b a
          · exact div_pos_of_neg_of_neg b a
        have hp : hitPoint T g.p d = triAt T (coords T g.p d) := at_coords T g.p d hNd
        by_cases hA' : hitPoint T g.p d ∈ A
        · rw [hH, indicator_of_mem (show d ∈ {d | d ∈ hitSet T g.p ∧ hitPoint T g.p d ∈ A} from ⟨hh, hA'⟩)]
          rw [show hitPoint T g.p d = g.p + (D / V3.dot (triCross T) d) • d from rfl, pdf_val hi hf n junk s hd hr]
          by_cases hc : V3.dot d n < 0 ∧ cosOf g d ≠ 0
          · rw [if_pos hc, hF, indicator_of_mem (show d ∈ S from ⟨h1, h2, by rw [← hp]; exact hA', hc⟩)]
            show ENNReal.ofReal _ * ENNReal.ofReal _ = _
            rw [← ENNReal.ofReal_mul (cosOf_nonneg g d)]
            congr 1
            have := hc.2
            have h3 : |V3.dot d n| ≠ 0 := abs_ne_zero.mpr hc.1.ne
            rw [mul_div_assoc', mul_comm (cosOf g d), mul_comm (cosOf g d), mul_div_mul_right _ _ this]
          · rw [if_neg hc, hF, indicator_of_notMem (show d ∉ S from fun h => hc h.2.2.2)]
            simp [dens]
        · rw [hH, indicator_of_notMem (fun h => hA' h.2), hF, indicator_of_notMem (show d ∉ S from fun h => hA' (by rw [hp]; exact h.2.2.1)), mul_zero]
      · rw [hH, indicator_of_notMem (fun h => hh h.1), hF, indicator_of_notMem (show d ∉ S from fun h => hh ((mem_hitSet T g.p d hD0).mpr ⟨h.1, h.2.1⟩)), mul_zero]
    rw [e1]
    have hdet : det3 (T.b - T.a) (T.c - T.a) (T.a - g.p) = D := rfl
    have hhalf : MeasurableSet {d : V3 ℝ | 0 < V3.dot (V3.cross (T.b - T.a) (T.c - T.a)) d * det3 (T.b - T.a) (T.c - T.a) (T.a - g.p)} := measurableSet_lt measurable_const ((measurable_cdot _).mul_const _)
    have e2 : ∫⁻ d, F d ∂solidAngle = ∫⁻ d in {d : V3 ℝ | 0 < V3.dot (V3.cross (T.b - T.a) (T.c - T.a)) d * det3 (T.b - T.a) (T.c - T.a) (T.a - g.p)}, F d ∂solidAngle := by
      rw [← lintegral_indicator hhalf]
      refine lintegral_congr fun d => ?_
      by_cases hd : d ∈ S
      · rw [indicator_of_mem (show d ∈ {d : V3 ℝ | 0 < V3.dot (V3.cross (T.b - T.a) (T.c - T.a)) d * det3 (T.b - T.a) (T.c - T.a) (T.a - g.p)} from hd.1)]
      · have : F d = 0 := by rw [hF, indicator_of_notMem hd]
        rw [this]
        symm
        by_cases h : d ∈ {d : V3 ℝ | 0 < V3.dot (V3.cross (T.b - T.a) (T.c - T.a)) d * det3 (T.b - T.a) (T.c - T.a) (T.a - g.p)}
        · rw [indicator_of_mem h, this]
        · rw [indicator_of_notMem h]
    rw [e2, lintegral_plane (by rw [hdet]; exact hD0) hFm, hdet]
    have hBm : MeasurableSet (directSet T n g A ∩ simplex) := (measurableSet_directSet T n g hA).inter measurableSet_simplex
    rw [← setLIntegral_const, ← lintegral_indicator hBm]
    refine lintegral_congr fun q => ?_
    rw [planePt_tri]
    set P := triAt T q - g.p with hP
    have hPp : 0 < V3.dot P P := dot_pos_of_ne (n := triCross T) (by rw [hPN]; exact hD0)
    obtain ⟨hu, hPe⟩ := dirOf_spec hPp
    set L := Real.sqrt (V3.dot P P) with hL
    have hLp : 0 < L := Real.sqrt_pos.mpr hPp
    have hx : g.p + L • dirOf P = triAt T q := by rw [← hPe, hP]; abel
    obtain ⟨hc, hNd⟩ := coords_at T g.p hD0 hLp.ne' (dirOf P) q hx
    rw [← hD] at hNd
    have hmem : dirOf P ∈ S ↔ q ∈ directSet T n g A ∩ simplex := by
      simp only [hS, mem_ofPred_eq, hc, directSet, mem_inter_iff, ← hP]
      constructor
      · rintro ⟨_, h2, h3, h4, h5⟩; exact ⟨⟨h3, h4, h5⟩, h2⟩
      · rintro ⟨⟨h3, h4, h5⟩, h2⟩
        refine ⟨?_, h2, h3, h4, h5⟩
        rw [hNd, div_mul_eq_mul_div]
        exact div_pos (mul_self_pos.mpr hD0) hLp
    by_cases hq : q ∈ directSet T n g A ∩ simplex
    · rw [hF, indicator_of_mem (hmem.mpr hq), indicator_of_mem hq, ← ENNReal.ofReal_mul (by positivity)]
      congr 1
      rw [hdn, hNd, div_div_cancel₀ hD0, abs_mul, abs_div, abs_of_pos hLp]
      have h1 : |D| ≠ 0 := abs_ne_zero.mpr hD0
      have h2 : |k| ≠ 0 := abs_ne_zero.mpr hk0
      have h3 : twiceArea T = 1 / |k| := by rw [eq_div_iff h2, mul_comm]; exact hkk
      rw [h3]
      field_simp
    · rw [hF, indicator_of_notMem (fun h => hq (hmem.mp h)), indicator_of_notMem hq, mul_zero]

/-- The law of the sampled point and its normal. -/
theorem area_direct_law (sgn : V3 ℝ → Bool) (junk Ke : V3 ℝ) (ts : List Tri) (M : Aff ℝ) (hA : 0 < (ts.map triArea).sum) (hM : M.det ≠ 0) (hS : ScalesArea M ts) (g : Geom) (hf : g.infinite = false) (a b : ℝ)
    (A : V3 ℝ → Set (V3 ℝ)) (hAm : ∀ n, MeasurableSet (A n)) : let L := area sgn junk Ke ts
    NullMeasurableSet {u : ℝ × ℝ × ℝ | ∃ gL wo C, L.sampleDirect ⟨u.1, u.2.1, u.2.2, a, b⟩ g M = .ok gL wo C ∧ gL.p ∈ A gL.n} uniform3 ∧
    uniform3 {u | ∃ gL wo C, L.sampleDirect ⟨u.1, u.2.1, u.2.2, a, b⟩ g M = .ok gL wo C ∧ gL.p ∈ A gL.n} =
      (ts.map fun t => ∫⁻ d, {d | d ∈ hitSet (triMap M t) g.p ∧ hitPoint (triMap M t) g.p d ∈ A (frontNormal M t)}.indicator
        (fun d => dens (L.pdfDirect g (makeOnSurface (hitPoint (triMap M t) g.p d) (frontNormal M t) (frontNormal M t) (sgn (frontNormal M t)) junk) M (-d) false)) d ∂solidAngleAt g).sum := by
  intro L
  obtain ⟨pA, hp, hpp, hpe⟩ := transformedInvA_pos ts M hA hM
  have h2 := (mesh_law ts hA {u | ∃ gL wo C, L.sampleDirect ⟨u.1, u.2.1, u.2.2, a, b⟩ g M = .ok gL wo C ∧ gL.p ∈ A gL.n} (fun t => directSet (triMap M t) (frontNormal M t) g (A (frontNormal M t)))
    (fun t _ => measurableSet_directSet _ _ _ (hAm _)) (fun d hd u hu i t hi ht hpos => by
      have e := sampleOnMesh_eq sgn junk ts M hM d hd ⟨u.1, u.2.1, u.2.2, a, b⟩ i hi t ht hpos
      set q := baryOf (u.1, u.2.1) with hq
      set n := frontNormal M t with hn
      set P := triAt (triMap M t) q - g.p with hP
      have hneg : g.p - triAt (triMap M t) q = -P := by rw [hP]; abel
      have hdd : V3.dot (-P) (-P) = V3.dot P P := by simp [V3.dot]
      rcases (dot_self_nonneg P).eq_or_lt with h0 | h0
      · have e1 : L.sampleDirect ⟨u.1, u.2.1, u.2.2, a, b⟩ g M = .undef := by
          show (area sgn junk Ke ts).sampleDirect _ g M = _
          simp only [area, e]
          have : normalize (g.p - (makeOnSurface (triAt (triMap M t) q) n n (sgn n) junk).p) = none := by
            show normalize (g.p - triAt (triMap M t) q) = none
            rw [hneg]; unfold Material.normalize; rw [hdd, if_pos h0.symm]
          rw [this]
        have e2 : q ∉ directSet (triMap M t) n g (A n) := by
          rintro ⟨_, h, _⟩
          rw [← hP, dot_self_zero h0.symm] at h
          simp [dirOf, V3.dot] at h
        simp only [mem_ofPred_eq, e1]
        constructor
        · rintro ⟨_, _, _, h, _⟩; cases h
        · intro h; exact absurd h e2
      · obtain ⟨hu1, hPe⟩ := dirOf_spec h0
        set r := Real.sqrt (V3.dot P P) with hr
        have hrp : 0 < r := Real.sqrt_pos.mpr h0
        have hx : g.p + r • dirOf P = triAt (triMap M t) q := by rw [← hPe, hP]; abel
        have hnm : normalize (g.p - triAt (triMap M t) q) = some (-dirOf P) := by
          rw [hneg]; unfold Material.normalize dirOf; rw [hdd, if_neg h0.ne', smul_neg]
        have hv := pdf_val hp hf n junk (sgn n) hu1 hrp
        rw [hx] at hv
        have e1 : L.sampleDirect ⟨u.1, u.2.1, u.2.2, a, b⟩ g M = rayOrFail (makeOnSurface (triAt (triMap M t) q) n n (sgn n) junk) (-dirOf P) (areaEval Ke (makeOnSurface (triAt (triMap M t) q) n n (sgn n) junk) (-dirOf P))
            (some (if V3.dot (dirOf P) n < 0 ∧ cosOf g (dirOf P) ≠ 0 then pA * r ^ 2 / (cosOf g (dirOf P) * |V3.dot (dirOf P) n|) else 0)) := by
          show (area sgn junk Ke ts).sampleDirect _ g M = _
          simp only [area, e]
          rw [show normalize (g.p - (makeOnSurface (triAt (triMap M t) q) n n (sgn n) junk).p) = some (-dirOf P) from hnm]
          simp only [hv]
        simp only [mem_ofPred_eq, e1, directSet, ← hP]
        by_cases hc : V3.dot (dirOf P) n < 0 ∧ cosOf g (dirOf P) ≠ 0
        · rw [if_pos hc]
          have hcp : 0 < cosOf g (dirOf P) := lt_of_le_of_ne (cosOf_nonneg _ _) (Ne.symm hc.2)
          have : 0 < |V3.dot (dirOf P) n| := abs_pos.mpr hc.1.ne
          obtain ⟨C, e3, _⟩ := rayOrFail_pos (makeOnSurface (triAt (triMap M t) q) n n (sgn n) junk) (-dirOf P) (areaEval Ke (makeOnSurface (triAt (triMap M t) q) n n (sgn n) junk) (-dirOf P)) (pA * r ^ 2 / (cosOf g (dirOf P) * |V3.dot (dirOf P) n|)) (by positivity)
          rw [e3]
          constructor
          · rintro ⟨_, _, _, h, hA'⟩
            cases h
            exact ⟨hA', hc⟩
          · rintro ⟨h, _⟩; exact ⟨_, _, _, rfl, h⟩
        · rw [if_neg hc, rayOrFail_zero]
          constructor
          · rintro ⟨_, _, _, h, _⟩; cases h
          · rintro ⟨_, h⟩; exact absurd h hc))
  refine ⟨h2.1, ?_⟩
  rw [h2.2]
  congr 1
  refine List.map_congr_left fun t ht => ?_
  obtain ⟨k, hk, hk1⟩ := frontNormal_par M hM t
  rw [← scales_term hA hM hS hpe t ht]
  exact (tri_direct hp hpp.le hf (triMap M t) (frontNormal M t) junk (sgn (frontNormal M t)) k hk hk1 (hAm _)).symm

/-- C80 (partial). Sampling a point of an area light towards the surface point (or camera, or medium point) g: for every measurable set A of points, the probability of sampling a point in A is the integral of the density
    that pdf_direct reports for the point seen in direction d, over the directions d in which g sees the part of the light in A, triangle by triangle, with respect to the solid angle at g.
    Missing: transforms that do not scale areas by their determinant (C46_negation_scaled_area). -/
theorem C80_area_direct_partial (sgn : V3 ℝ → Bool) (junk Ke : V3 ℝ) (ts : List Tri) (M : Aff ℝ) (hA : 0 < (ts.map triArea).sum) (hM : M.det ≠ 0) (hS : ScalesArea M ts) (g : Geom) (hf : g.infinite = false) (a b : ℝ) (A : Set (V3 ℝ))
    (hAm : MeasurableSet A) : let L := area sgn junk Ke ts
    uniform3 {u | ∃ p, resPoint (L.sampleDirect ⟨u.1, u.2.1, u.2.2, a, b⟩ g M) = some p ∧ p ∈ A} =
      (ts.map fun t => ∫⁻ d, {d | d ∈ hitSet (triMap M t) g.p ∧ hitPoint (triMap M t) g.p d ∈ A}.indicator
        (fun d => dens (L.pdfDirect g (makeOnSurface (hitPoint (triMap M t) g.p d) (frontNormal M t) (frontNormal M t) (sgn (frontNormal M t)) junk) M (-d) false)) d ∂solidAngleAt g).sum := by
  intro L
  rw [← (area_direct_law sgn junk Ke ts M hA hM hS g hf a b (fun _ => A) fun _ => hAm).2]
  congr 1
  ext u
  simp only [mem_ofPred_eq]
  show _ ↔ ∃ gL wo C, L.sampleDirect ⟨u.1, u.2.1, u.2.2, a, b⟩ g M = .ok gL wo C ∧ gL.p ∈ A
  cases L.sampleDirect ⟨u.1, u.2.1, u.2.2, a, b⟩ g M <;> simp [resPoint]

theorem scales_id (ts : List Tri) : ScalesArea ⟨⟨1, 0, 0⟩, ⟨0, 1, 0⟩, ⟨0, 0, 1⟩, ⟨3, 4, 5⟩⟩ ts := by
  intro t _
  have : (Aff.det (⟨⟨1, 0, 0⟩, ⟨0, 1, 0⟩, ⟨0, 0, 1⟩, ⟨3, 4, 5⟩⟩ : Aff ℝ)) = 1 := by simp [Aff.det, V3.dot, V3.cross]
  rw [this, abs_one, one_mul]
  unfold twiceArea
  congr 1
  simp [triCross, triMap, Aff.app, Aff.lin, V3.dot, V3.cross]

example : 0 < (exSquare.map triArea).sum ∧ (Aff.det (⟨⟨1, 0, 0⟩, ⟨0, 1, 0⟩, ⟨0, 0, 1⟩, ⟨3, 4, 5⟩⟩ : Aff ℝ)) ≠ 0 ∧ ScalesArea ⟨⟨1, 0, 0⟩, ⟨0, 1, 0⟩, ⟨0, 0, 1⟩, ⟨3, 4, 5⟩⟩ exSquare ∧ exGeom.infinite = false :=
  ⟨by rw [exSquare_area]; norm_num, by simp [Aff.det, V3.dot, V3.cross], scales_id _, rfl⟩

end LM.Solid
