import Verif.Props.C57_Volume
import Mathlib.MeasureTheory.Measure.Lebesgue.Basic
import Mathlib.MeasureTheory.Measure.Real
namespace LM.Volume
open LM LM.MathF LM.Surface LM.Material LM.Bound MeasureTheory

/-! ### Specification -/

/-- Parameters of the ray's points inside the medium, within the query interval. -/
def Chord (b : Box ℝ) (r : RayK ℝ) (tmin tmax : ℝ) : Set ℝ := {t | (tmin ≤ t ∧ t ≤ tmax) ∧ In (r.o + t • r.d) b}

/-- Optical depth over length: the length of the ray inside the medium, within the query interval (Lebesgue measure). -/
noncomputable def depth (b : Box ℝ) (r : RayK ℝ) (tmin tmax : ℝ) : ℝ := volume.real (Chord b r tmin tmax)

/-! ### Lemmas -/

theorem chord_cases (b : Box ℝ) (r : RayK ℝ) (tmin tmax : ℝ) (hg : NoGraze b r) :
    (isectRange b r (.fin tmin) (.fin tmax) = none ∧ Chord b r tmin tmax = ∅) ∨
    ∃ a c, isectRange b r (.fin tmin) (.fin tmax) = some (.fin a, .fin c) ∧ a ≤ c ∧ Chord b r tmin tmax = Set.Icc a c := by
  rcases C31_exact b r tmin tmax hg with ⟨e, h⟩ | ⟨a, c, e, hac, h⟩
  · refine .inl ⟨e, ?_⟩
    ext t
    simp only [Chord, Set.mem_ofPred_eq, Set.mem_empty_iff_false, iff_false, not_and]
    exact fun ht => h t ht.1 ht.2
  · refine .inr ⟨a, c, e, hac, ?_⟩
    ext t
    exact (h t).symm

theorem depth_nonneg (b : Box ℝ) (r : RayK ℝ) (tmin tmax : ℝ) : 0 ≤ depth b r tmin tmax := measureReal_nonneg

theorem depth_none (b : Box ℝ) (r : RayK ℝ) (tmin tmax : ℝ) (h : Chord b r tmin tmax = ∅) : depth b r tmin tmax = 0 := by rw [depth, h]; simp

theorem depth_icc (b : Box ℝ) (r : RayK ℝ) (tmin tmax a c : ℝ) (hac : a ≤ c) (h : Chord b r tmin tmax = Set.Icc a c) : depth b r tmin tmax = c - a := by
  rw [depth, h, Real.volume_real_Icc_of_le hac]

theorem depth_add (b : Box ℝ) (r : RayK ℝ) (t0 t1 t2 : ℝ) (h1 : t0 ≤ t1) (h2 : t1 ≤ t2) : depth b r t0 t2 = depth b r t0 t1 + depth b r t1 t2 := by
  have hu : Chord b r t0 t2 = Chord b r t0 t1 ∪ Chord b r t1 t2 := by
    ext t
    simp only [Chord, Set.mem_ofPred_eq, Set.mem_union]
    constructor
    · rintro ⟨⟨a, c⟩, h⟩
      rcases le_total t t1 with h' | h'
      · exact .inl ⟨⟨a, h'⟩, h⟩
      · exact .inr ⟨⟨h', c⟩, h⟩
    · rintro (⟨⟨a, c⟩, h⟩ | ⟨⟨a, c⟩, h⟩)
      · exact ⟨⟨a, le_trans c h2⟩, h⟩
      · exact ⟨⟨le_trans h1 a, c⟩, h⟩
  have hd : Chord b r t0 t1 ∩ Chord b r t1 t2 ⊆ {t1} := by
    rintro t ⟨⟨⟨_, a⟩, _⟩, ⟨⟨c, _⟩, _⟩⟩
    exact le_antisymm a c
  have hm : MeasurableSet (Chord b r t1 t2) := by
    have : IsClosed (Chord b r t1 t2) := by
      simp only [Chord, In, V3.add_x, V3.add_y, V3.add_z, V3.smul_x, V3.smul_y, V3.smul_z]
      have c1 : Continuous (fun t : ℝ => r.o.x + t * r.d.x) := by fun_prop
      have c2 : Continuous (fun t : ℝ => r.o.y + t * r.d.y) := by fun_prop
      have c3 : Continuous (fun t : ℝ => r.o.z + t * r.d.z) := by fun_prop
      exact ((isClosed_le continuous_const continuous_id).inter (isClosed_le continuous_id continuous_const)).inter
        (((isClosed_le continuous_const c1).inter (isClosed_le c1 continuous_const)).inter
          (((isClosed_le continuous_const c2).inter (isClosed_le c2 continuous_const)).inter ((isClosed_le continuous_const c3).inter (isClosed_le c3 continuous_const))))
    exact this.measurableSet
  have fin : ∀ a c, volume (Chord b r a c) ≠ ⊤ := by
    intro a c
    have : Chord b r a c ⊆ Set.Icc a c := fun t h => h.1
    exact ne_top_of_le_ne_top (by simp) (measure_mono this)
  have z : volume.real (Chord b r t0 t1 ∩ Chord b r t1 t2) = 0 := by
    have : volume (Chord b r t0 t1 ∩ Chord b r t1 t2) = 0 := measure_mono_null hd (by simp)
    simp [Measure.real, this]
  have := measureReal_union_add_inter (μ := volume) (s := Chord b r t0 t1) (t := Chord b r t1 t2) hm (fin _ _) (fin _ _)
  rw [z, add_zero, ← hu] at this
  exact this

/-! ### Homogeneous media -/

/-- C58. The transmittance of a homogeneous medium is exp(-density · length inside the medium): in (0,1], and 1 if the ray misses the medium. Missing: rays running inside a face plane of the bound (C58_negation_graze). -/
theorem C58_transmittance_partial (density : ℝ) (b : Box ℝ) (r : RayK ℝ) (tmin tmax : ℝ) (hd : 0 ≤ density) (hg : NoGraze b r) :
    ∃ T, homogeneousTransmittance density b r tmin tmax = some (V3.all T) ∧ 0 < T ∧ T ≤ 1 ∧ T = Real.exp (-density * depth b r tmin tmax) ∧
      ((∀ t, tmin ≤ t → t ≤ tmax → ¬ In (r.o + t • r.d) b) → T = 1) := by
  have key : homogeneousTransmittance density b r tmin tmax = some (V3.all (Real.exp (-density * depth b r tmin tmax))) := by
    rcases chord_cases b r tmin tmax hg with ⟨e, h⟩ | ⟨a, c, e, hac, h⟩
    · simp only [homogeneousTransmittance, e, depth_none b r tmin tmax h, mul_zero, Real.exp_zero]
    · simp only [homogeneousTransmittance, e, depth_icc b r tmin tmax a c hac h]
  refine ⟨_, key, Real.exp_pos _, ?_, rfl, fun h => ?_⟩
  · rw [Real.exp_le_one_iff]
    have := mul_nonneg hd (depth_nonneg b r tmin tmax)
    linarith
  · have : Chord b r tmin tmax = ∅ := by
      ext t
      simp only [Chord, Set.mem_ofPred_eq, Set.mem_empty_iff_false, iff_false, not_and]
      exact fun ht => h t ht.1 ht.2
    rw [depth_none b r tmin tmax this, mul_zero, Real.exp_zero]

/-- C58. Multiplicative over adjacent segments. Missing: rays running inside a face plane of the bound (C58_negation_graze). -/
theorem C58_multiplicative_partial (density : ℝ) (b : Box ℝ) (r : RayK ℝ) (t0 t1 t2 : ℝ) (h1 : t0 ≤ t1) (h2 : t1 ≤ t2) (hd : 0 ≤ density) (hg : NoGraze b r) :
    ∃ A B, homogeneousTransmittance density b r t0 t1 = some (V3.all A) ∧ homogeneousTransmittance density b r t1 t2 = some (V3.all B) ∧
      homogeneousTransmittance density b r t0 t2 = some (V3.all (A * B)) := by
  obtain ⟨A, eA, _, _, hA, _⟩ := C58_transmittance_partial density b r t0 t1 hd hg
  obtain ⟨B, eB, _, _, hB, _⟩ := C58_transmittance_partial density b r t1 t2 hd hg
  obtain ⟨C, eC, _, _, hC, _⟩ := C58_transmittance_partial density b r t0 t2 hd hg
  refine ⟨A, B, eA, eB, ?_⟩
  rw [eC, hC, hA, hB, ← Real.exp_add, depth_add b r t0 t1 t2 h1 h2]
  congr 3; ring

/-- C58. Distance sampling in a homogeneous medium. Nothing is returned exactly when the ray misses the medium. Otherwise: a medium interaction happens for 1 - u above the
    transmittance T of the whole chord (hence with probability 1 - T), at a point of the ray inside the medium and the interval such that the transmittance up to it is 1 - u,
    with the albedo as weight; else the surface is reached with weight 1. Missing: rays running inside a face plane of the bound (C58_negation_graze). -/
theorem C58_distance_partial (density : ℝ) (albedo : V3 ℝ) (b : Box ℝ) (r : RayK ℝ) (tmin tmax u : ℝ) (hd : 0 < density) (h0 : 0 ≤ u) (h1 : u < 1) (hg : NoGraze b r) :
    (homogeneousDistance density albedo b r tmin tmax u = .none ∧ Chord b r tmin tmax = ∅) ∨
    ((Chord b r tmin tmax).Nonempty ∧
      ((Real.exp (-density * depth b r tmin tmax) < 1 - u ∧ ∃ t ∈ Chord b r tmin tmax,
          homogeneousDistance density albedo b r tmin tmax u = .ok (r.o + t • r.d) albedo true ∧ Real.exp (-density * depth b r tmin t) = 1 - u) ∨
       (1 - u ≤ Real.exp (-density * depth b r tmin tmax) ∧ ∃ p, homogeneousDistance density albedo b r tmin tmax u = .ok p (V3.all 1) false))) := by
  rcases chord_cases b r tmin tmax hg with ⟨e, h⟩ | ⟨a, c, e, hac, h⟩
  · exact .inl ⟨by simp only [homogeneousDistance, e], h⟩
  · right
    refine ⟨by rw [h]; exact ⟨a, le_refl _, hac⟩, ?_⟩
    rw [depth_icc b r tmin tmax a c hac h]
    have hu : 0 < 1 - u := by linarith
    set s := -Real.log (1 - u) / density with hs
    have hs0 : 0 ≤ s := div_nonneg (by have := Real.log_nonpos hu.le (by linarith : 1 - u ≤ 1); linarith) hd.le
    have hexp : Real.exp (-density * s) = 1 - u := by
      have : -density * s = Real.log (1 - u) := by rw [hs]; field_simp
      rw [this, Real.exp_log hu]
    by_cases hc : s < c - a
    · left
      refine ⟨?_, a + s, ?_, ?_, ?_⟩
      · rw [← hexp, Real.exp_lt_exp]; nlinarith
      · rw [h]; exact ⟨by linarith, by linarith⟩
      · simp only [homogeneousDistance, e, ← hs, ne_eq, hd.ne', not_false_eq_true, true_and, hc, if_true]
      · have hch : Chord b r tmin (a + s) = Set.Icc a (a + s) := by
          have mem := fun t => Set.ext_iff.mp h t
          have m1 := (mem (a + s)).mpr ⟨by linarith, by linarith⟩
          ext t
          constructor
          · rintro ⟨⟨x, y⟩, z⟩
            have := (mem t).mp ⟨⟨x, le_trans y m1.1.2⟩, z⟩
            exact ⟨this.1, y⟩
          · rintro ⟨x, y⟩
            have := (mem t).mpr ⟨x, by linarith⟩
            exact ⟨⟨this.1.1, y⟩, this.2⟩
        rw [depth_icc b r tmin (a + s) a (a + s) (by linarith) hch, add_sub_cancel_left, hexp]
    · right
      refine ⟨?_, r.o + c • r.d, ?_⟩
      · rw [← hexp, Real.exp_le_exp]; nlinarith [not_lt.mp hc]
      · simp only [homogeneousDistance, e, ← hs, hc, and_false, if_false]

/-- C58 fails for rays running inside a face plane of the medium: the range is not a number, so the transmittance is undefined although the ray crosses the (closed) medium,
    and no distance is sampled. -/
theorem C58_negation_graze (density u : ℝ) (albedo : V3 ℝ) : ∃ (b : Box ℝ) (r : RayK ℝ), (∀ t : ℝ, 0 ≤ t → t ≤ 1 → In (r.o + t • r.d) b) ∧
    homogeneousTransmittance density b r 0 1 = none ∧ homogeneousDistance density albedo b r 0 1 u = .undef := by
  have e : isectRange (⟨⟨0, 0, 0⟩, ⟨1, 1, 1⟩⟩ : Box ℝ) ⟨⟨0, 1 / 2, 0⟩, ⟨1, 0, 0⟩, (false, false, false)⟩ (.fin 0) (.fin 1) = some (.nan, .fin 1) := by
    norm_num [isectRange, axis, recip, emul, elt, emax, emin]
  refine ⟨⟨⟨0, 0, 0⟩, ⟨1, 1, 1⟩⟩, ⟨⟨0, 1 / 2, 0⟩, ⟨1, 0, 0⟩, (false, false, false)⟩, fun t h0 h1 => ?_, by simp only [homogeneousTransmittance, e], by simp only [homogeneousDistance, e]⟩
  simp only [In, V3.add_x, V3.add_y, V3.add_z, V3.smul_x, V3.smul_y, V3.smul_z]
  refine ⟨⟨by linarith, by linarith⟩, ⟨by norm_num, by norm_num⟩, by norm_num, by norm_num⟩

/-! ### Heterogeneous media -/

/-- Random numbers in [0,1). -/
def Unit (us : List ℝ) : Prop := ∀ u ∈ us, 0 ≤ u ∧ u < 1

theorem step_fwd (t u inv : ℝ) (h0 : 0 ≤ u) (h1 : u < 1) (hi : 0 ≤ inv) : t ≤ t - Real.log (1 - u) * inv := by
  have := Real.log_nonpos (by linarith : 0 ≤ 1 - u) (by linarith)
  nlinarith

theorem delta_spec (density albedo : Vol) (r : RayK ℝ) (inv tmax : ℝ) (hi : 0 < inv) (n : ℕ) : ∀ (us : List ℝ) (t : ℝ), us.length ≤ n → Unit us → ∀ p c,
    deltaTracking density albedo r inv tmax t us = .done (some (p, c)) →
    ∃ s d, t ≤ s ∧ s < tmax ∧ p = r.o + s • r.d ∧ density.evalScalar p = some d ∧ 0 < d ∧ albedo.evalColor p = some c := by
  induction n with
  | zero =>
    intro us t hl _ p c h
    have : us = [] := by simpa using hl
    subst this; simp [deltaTracking] at h
  | succ n ih =>
    intro us t hl hu p c h
    match us with
    | [] => simp [deltaTracking] at h
    | [u1] =>
      rw [deltaTracking] at h
      split at h
      · cases h
      · split at h <;> simp at h
    | u1 :: u2 :: us =>
      rw [deltaTracking] at h
      have hu1 := hu u1 (by simp)
      have hu2 := hu u2 (by simp)
      have hf := step_fwd t u1 inv hu1.1 hu1.2 hi.le
      simp only at h
      split at h
      · cases h
      next hlt =>
      cases hd : density.evalScalar (r.o + (t - Real.log (1 - u1) * inv) • r.d) with
      | none => simp only [hd] at h; cases h
      | some d =>
        simp only [hd] at h
        split at h
        · next hgt =>
          cases hc : albedo.evalColor (r.o + (t - Real.log (1 - u1) * inv) • r.d) with
          | none => simp only [hc] at h; cases h
          | some c' =>
            simp only [hc] at h
            cases h
            refine ⟨_, d, hf, not_le.mp hlt, rfl, hd, ?_, hc⟩
            by_contra hn
            have : d * inv ≤ 0 := mul_nonpos_of_nonpos_of_nonneg (not_lt.mp hn) hi.le
            linarith [hu2.1]
        · obtain ⟨s, d', h1, h2⟩ := ih us _ (by simp at hl; omega) (fun u hu' => hu u (by simp [hu'])) p c h
          exact ⟨s, d', le_trans hf h1, h2⟩

theorem delta_defined (density albedo : Vol) (r : RayK ℝ) (inv tmax : ℝ) (hi : 0 < inv) (hd : Majorized density)
    (ha : ∀ p d, density.evalScalar p = some d → 0 < d → ∃ c, albedo.evalColor p = some c) (n : ℕ) : ∀ (us : List ℝ) (t : ℝ), us.length ≤ n → Unit us →
    deltaTracking density albedo r inv tmax t us ≠ .undef := by
  induction n with
  | zero =>
    intro us t hl _ h
    have : us = [] := by simpa using hl
    subst this; simp [deltaTracking] at h
  | succ n ih =>
    intro us t hl hu h
    match us with
    | [] => simp [deltaTracking] at h
    | [u1] =>
      rw [deltaTracking] at h
      obtain ⟨_, M, _, _, hM⟩ := hd
      obtain ⟨d, hd, _⟩ := hM (r.o + (t - Real.log (1 - u1) * inv) • r.d)
      simp only [hd] at h
      split at h <;> cases h
    | u1 :: u2 :: us =>
      rw [deltaTracking] at h
      have hu2 := hu u2 (by simp)
      obtain ⟨_, M, _, _, hM⟩ := id hd
      obtain ⟨d, hd', d0, _⟩ := hM (r.o + (t - Real.log (1 - u1) * inv) • r.d)
      simp only [hd'] at h
      split at h
      · cases h
      · split at h
        · next hgt =>
          have dp : 0 < d := by
            rcases d0.lt_or_eq with h' | h'
            · exact h'
            · rw [← h', zero_mul] at hgt; linarith [hu2.1]
          obtain ⟨c, hc⟩ := ha _ d hd' dp
          simp only [hc] at h
          cases h
        · exact ih us _ (by simp at hl; omega) (fun u hu' => hu u (by simp [hu'])) h

/-- C58. Delta tracking. Whatever the random numbers: an interaction returned lies on the ray inside the query interval and inside the bound of the medium, at a point of
    positive density, with the albedo there as weight; the computation has no undefined value; nothing is returned if the ray misses the bound. Missing: rays running inside a face plane of the bound (C58_negation_graze), and media whose maximum density is zero, for which the code divides by zero. -/
theorem C58_delta_tracking_partial (density albedo : Vol) (r : RayK ℝ) (tmin tmax : ℝ) (us : List ℝ) (hu : Unit us) (hg : NoGraze density.bound r) (hd : Majorized density)
    (hpos : density.maxScalar ≠ some 0) (ha : ∀ p d, density.evalScalar p = some d → 0 < d → ∃ c, albedo.evalColor p = some c) :
    heterogeneousDistance density albedo r tmin tmax us ≠ .undef ∧
    (Chord density.bound r tmin tmax = ∅ → heterogeneousDistance density albedo r tmin tmax us = .done .none) ∧
    ∀ res, heterogeneousDistance density albedo r tmin tmax us = .done res → res = .none ∨
      ∃ t ∈ Chord density.bound r tmin tmax, ∃ d c, res = .ok (r.o + t • r.d) c true ∧ t < tmax ∧ density.evalScalar (r.o + t • r.d) = some d ∧ 0 < d ∧
        albedo.evalColor (r.o + t • r.d) = some c := by
  obtain ⟨hs, M, hM, M0, hval⟩ := id hd
  have Mp : 0 < M := lt_of_le_of_ne M0 (fun e => hpos (by rw [hM, ← e]))
  have hinv : density.maxScalar.bind (fun m => divF 1 m) = some (1 / M) := by rw [hM]; simp [divF, Mp.ne']
  have ip : 0 < 1 / M := by positivity
  rcases chord_cases density.bound r tmin tmax hg with ⟨e, h⟩ | ⟨a, c, e, hac, h⟩
  · have : heterogeneousDistance density albedo r tmin tmax us = .done .none := by simp only [heterogeneousDistance, e]
    rw [this]
    exact ⟨by simp, fun _ => rfl, fun res hres => by cases hres; exact .inl rfl⟩
  · have key : heterogeneousDistance density albedo r tmin tmax us = match deltaTracking density albedo r (1 / M) c a us with
      | .more => .more
      | .undef => .undef
      | .done none => .done .none
      | .done (some (p, w)) => .done (.ok p w true) := by simp only [heterogeneousDistance, e, hinv]; rfl
    have nd := delta_defined density albedo r (1 / M) c ip hd ha us.length us a (le_refl _) hu
    have sp := delta_spec density albedo r (1 / M) c ip us.length us a (le_refl _) hu
    refine ⟨?_, fun h' => ?_, fun res hres => ?_⟩
    · rw [key]
      cases hx : deltaTracking density albedo r (1 / M) c a us with
      | more => simp
      | undef => exact absurd hx nd
      | done o => cases o <;> simp
    · rw [h] at h'
      exact absurd h' (by rw [Set.Icc_eq_empty_iff]; exact fun hn => hn hac)
    · rw [key] at hres
      cases hx : deltaTracking density albedo r (1 / M) c a us with
      | more => rw [hx] at hres; cases hres
      | undef => exact absurd hx nd
      | done o =>
        rw [hx] at hres
        cases o with
        | none => cases hres; exact .inl rfl
        | some pw =>
          obtain ⟨p, w⟩ := pw
          cases hres
          obtain ⟨s, d, h1, h2, rfl, h4, h5, h6⟩ := sp p w hx
          have mem : s ∈ Chord density.bound r tmin tmax := by rw [h]; exact ⟨h1, h2.le⟩
          have memc : c ∈ Chord density.bound r tmin tmax := by rw [h]; exact ⟨hac, le_refl _⟩
          exact .inr ⟨s, mem, d, w, rfl, lt_of_lt_of_le h2 memc.1.2, h4, h5, h6⟩

/-- C58. Where the density equals the majorant (a homogeneous volume), delta tracking takes the same decision, at the same point, as the analytic sampling of a homogeneous medium. -/
theorem C58_delta_homogeneous (density albedo : Vol) (r : RayK ℝ) (tmin tmax M : ℝ) (hM : density.maxScalar = some M) (Mp : 0 < M) (hval : ∀ p, density.evalScalar p = some M)
    (c : V3 ℝ) (hc : ∀ p, albedo.evalColor p = some c) (hg : NoGraze density.bound r) (u1 u2 : ℝ) (us : List ℝ) (h2 : u2 < 1) :
    (heterogeneousDistance density albedo r tmin tmax (u1 :: u2 :: us) = .done .none ∧
      ∀ p w, homogeneousDistance M c density.bound r tmin tmax u1 ≠ .ok p w true) ∨
    ∃ p, heterogeneousDistance density albedo r tmin tmax (u1 :: u2 :: us) = .done (.ok p c true) ∧ homogeneousDistance M c density.bound r tmin tmax u1 = .ok p c true := by
  have hinv : density.maxScalar.bind (fun m => divF 1 m) = some (1 / M) := by rw [hM]; simp [divF, Mp.ne']
  rcases chord_cases density.bound r tmin tmax hg with ⟨e, h⟩ | ⟨a, b, e, hac, h⟩
  · left
    refine ⟨by simp only [heterogeneousDistance, e], fun p w => by simp only [homogeneousDistance, e]; simp⟩
  · have et : a - Real.log (1 - u1) * (1 / M) = a + -Real.log (1 - u1) / M := by ring
    have h1 : M * (1 / M) > u2 := by rw [mul_one_div_cancel Mp.ne']; exact h2
    by_cases hlt : -Real.log (1 - u1) / M < b - a
    · right
      have hn : ¬ (a + -Real.log (1 - u1) / M ≥ b) := by linarith
      refine ⟨_, ?_, by simp only [homogeneousDistance, e, ne_eq, Mp.ne', not_false_eq_true, true_and, hlt, if_true]; rfl⟩
      simp only [heterogeneousDistance, e, hinv, deltaTracking, et, hn, if_false, hval, h1, if_true, hc]
    · left
      have hn : a + -Real.log (1 - u1) / M ≥ b := by linarith
      refine ⟨?_, fun p w => ?_⟩
      · simp only [heterogeneousDistance, e, hinv, deltaTracking, et, hn, if_true]
      · simp only [homogeneousDistance, e, hlt, and_false, if_false]; simp

theorem ratio_spec (density : Vol) (r : RayK ℝ) (tmax M : ℝ) (Mp : 0 < M) (hval : ∀ p, ∃ d, density.evalScalar p = some d ∧ 0 ≤ d ∧ d ≤ M) (us : List ℝ) :
    ∀ t tr, 0 ≤ tr → tr ≤ 1 → ratioTracking density r (1 / M) tmax t tr us ≠ .undef ∧ ∀ x, ratioTracking density r (1 / M) tmax t tr us = .done x → 0 ≤ x ∧ x ≤ tr := by
  induction us with
  | nil => intro t tr _ _; simp [ratioTracking]
  | cons u us ih =>
    intro t tr h0 h1
    rw [ratioTracking]
    obtain ⟨d, hd, d0, d1⟩ := hval (r.o + (t - Real.log (1 - u) * (1 / M)) • r.d)
    simp only [hd]
    split
    · exact ⟨by simp, fun x hx => by cases hx; exact ⟨h0, le_refl _⟩⟩
    · have a : 0 ≤ 1 - d * (1 / M) := by rw [mul_one_div, sub_nonneg, div_le_one Mp]; exact d1
      have b : 1 - d * (1 / M) ≤ 1 := by have : 0 ≤ d * (1 / M) := by positivity
                                         linarith
      have t0 := mul_nonneg h0 a
      have t1 := mul_le_of_le_one_right h0 b
      obtain ⟨i1, i2⟩ := ih (t - Real.log (1 - u) * (1 / M)) (tr * (1 - d * (1 / M))) t0 (le_trans t1 h1)
      exact ⟨i1, fun x hx => ⟨(i2 x hx).1, le_trans (i2 x hx).2 t1⟩⟩

/-- C58. Ratio tracking: every estimate lies in [0,1], is 1 if the ray misses the bound of the medium, and no value is undefined. Missing: rays running inside a face plane of the bound (C58_negation_graze), and media whose maximum density is zero, for which the code divides by zero. -/
theorem C58_ratio_tracking_partial (density : Vol) (r : RayK ℝ) (tmin tmax : ℝ) (us : List ℝ) (hg : NoGraze density.bound r) (hd : Majorized density) (hpos : density.maxScalar ≠ some 0) :
    heterogeneousTransmittance density r tmin tmax us ≠ .undef ∧ (Chord density.bound r tmin tmax = ∅ → heterogeneousTransmittance density r tmin tmax us = .done (V3.all 1)) ∧
    ∀ v, heterogeneousTransmittance density r tmin tmax us = .done v → ∃ T, v = V3.all T ∧ 0 ≤ T ∧ T ≤ 1 := by
  obtain ⟨hs, M, hM, M0, hval⟩ := id hd
  have Mp : 0 < M := lt_of_le_of_ne M0 (fun e => hpos (by rw [hM, ← e]))
  have hinv : density.maxScalar.bind (fun m => divF 1 m) = some (1 / M) := by rw [hM]; simp [divF, Mp.ne']
  rcases chord_cases density.bound r tmin tmax hg with ⟨e, h⟩ | ⟨a, c, e, hac, h⟩
  · have : heterogeneousTransmittance density r tmin tmax us = .done (V3.all 1) := by simp only [heterogeneousTransmittance, e]
    rw [this]
    exact ⟨by simp, fun _ => rfl, fun v hv => by cases hv; exact ⟨1, rfl, zero_le_one, le_refl _⟩⟩
  · obtain ⟨r1, r2⟩ := ratio_spec density r c M Mp hval us a 1 zero_le_one (le_refl _)
    have key : heterogeneousTransmittance density r tmin tmax us = match ratioTracking density r (1 / M) c a 1 us with
      | .more => .more
      | .undef => .undef
      | .done t => .done (V3.all t) := by simp only [heterogeneousTransmittance, e, hinv]; rfl
    refine ⟨?_, fun h' => ?_, fun v hv => ?_⟩
    · rw [key]
      cases hx : ratioTracking density r (1 / M) c a 1 us with
      | more => simp
      | undef => exact absurd hx r1
      | done o => simp
    · rw [h] at h'
      exact absurd h' (by rw [Set.Icc_eq_empty_iff]; exact fun hn => hn hac)
    · rw [key] at hv
      cases hx : ratioTracking density r (1 / M) c a 1 us with
      | more => rw [hx] at hv; cases hv
      | undef => exact absurd hx r1
      | done t =>
        rw [hx] at hv; cases hv
        exact ⟨t, rfl, r2 t hx⟩

/-- Non-vacuity: a ray through the unit cube, of chord length 1, and a ball volume. -/
example : NoGraze (⟨⟨0, 0, 0⟩, ⟨1, 1, 1⟩⟩ : Box ℝ) ⟨⟨-1, 1 / 2, 1 / 2⟩, ⟨1, 0, 0⟩, (false, false, false)⟩ ∧
    depth ⟨⟨0, 0, 0⟩, ⟨1, 1, 1⟩⟩ ⟨⟨-1, 1 / 2, 1 / 2⟩, ⟨1, 0, 0⟩, (false, false, false)⟩ 0 10 = 1 := by
  refine ⟨by simp [NoGraze], ?_⟩
  have : Chord ⟨⟨0, 0, 0⟩, ⟨1, 1, 1⟩⟩ ⟨⟨-1, 1 / 2, 1 / 2⟩, ⟨1, 0, 0⟩, (false, false, false)⟩ 0 10 = Set.Icc 1 2 := by
    ext t
    simp only [Chord, In, V3.add_x, V3.add_y, V3.add_z, V3.smul_x, V3.smul_y, V3.smul_z, Set.mem_ofPred_eq, Set.mem_Icc]
    constructor
    · rintro ⟨_, ⟨h1, h2⟩, _⟩; constructor <;> linarith
    · rintro ⟨h1, h2⟩
      refine ⟨⟨by linarith, by linarith⟩, ⟨by linarith, by linarith⟩, ⟨by norm_num, by norm_num⟩, by norm_num, by norm_num⟩
  rw [depth_icc _ _ _ _ 1 2 (by norm_num) this]; norm_num

example : ∃ v, sphere none (some 2) 0 1 = some v ∧ Majorized v ∧ v.maxScalar ≠ some 0 ∧ NoGraze v.bound ⟨⟨-9, 0, 0⟩, ⟨1, 0, 0⟩, (false, false, false)⟩ := by
  obtain ⟨v, e, m, _⟩ := C57_sphere none 2 0 1 (by norm_num)
  refine ⟨v, e, m, ?_⟩
  simp only [sphere, reduceCtorEq, and_false, if_false] at e
  cases e
  refine ⟨by simp, ?_⟩
  simp only [NoGraze, sphereBound, V3.sub_y, V3.sub_z, V3.add_y, V3.add_z, V3.all, Eps]
  norm_num

end LM.Volume
