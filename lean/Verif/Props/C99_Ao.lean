import Verif.Model.Ao
import Verif.Props.C90_Raycast
import Verif.Props.C80_Material
import Mathlib.Probability.Moments.Variance
import Mathlib.Probability.Independence.Basic
/-
  C99: the image of the ambient occlusion renderer.
-/
namespace LM.Ao
open MeasureTheory LM LM.Film LM.Scheduler LM.Surface LM.Material LM.Light LM.MathF LM.Path LM.Render LM.Accel LM.RenderFilm LM.Solid LM.Raycast
open scoped ENNReal

/-! ### Specification -/

/-- The ray through the centre of pixel (x, y) of a w × h image has the direction d and meets sp. -/
def Seen (W : World) (I : Isect) (w h x y : ℕ) (sp : SI) (d : V3 ℝ) : Prop :=
  ∃ cam, Sees W cam ∧ V3.dot d d = 1 ∧ cam.Towards d (((x : ℝ) + 1 / 2) / w) (((y : ℝ) + 1 / 2) / h) ∧ I cam.position d Eps Surface.Inf = some sp

/-- The directions in which nothing is met from p up to the distance 1/5. -/
def Open (I : Isect) (p : V3 ℝ) : Set (V3 ℝ) := {d | I p d Eps (1 / 5) = none}

/-- The part of the hemisphere around n in which nothing is met from p up to the distance 1/5, weighted by the cosine of the angle with n; 1 for the whole hemisphere. -/
noncomputable def openness (I : Isect) (p n : V3 ℝ) : ℝ := (∫⁻ d in Open I p, ENNReal.ofReal (V3.dot d n / Real.pi) ∂solidAngle).toReal

/-- n independent pairs of random numbers. -/
noncomputable def pairs (n : ℕ) : Measure (Fin n → ℝ × ℝ) := Measure.pi fun _ => uniform2

/-! ### Averages of independent samples -/

instance : IsProbabilityMeasure uniform2 := by
  constructor
  have h := congrArg (fun μ => μ Set.univ) C80_sphere
  simp only [Measure.smul_apply, smul_eq_mul] at h
  rw [Measure.map_apply measurable_sphere MeasurableSet.univ, Set.preimage_univ, solidAngle_univ] at h
  rw [h, ← ENNReal.ofReal_mul (by positivity)]
  have : (1 / (4 * Real.pi) * (4 * Real.pi)) = 1 := by field_simp
  rw [this, ENNReal.ofReal_one]

theorem mean_law (n : ℕ) (hn : 0 < n) (g : ℝ × ℝ → ℝ) (hg : Measurable g) (h0 : ∀ q, 0 ≤ g q ∧ g q ≤ 1) :
    ∫ q, (∑ i, g (q i)) / n ∂pairs n = ∫ q, g q ∂uniform2 ∧ ∫ q, ((∑ i, g (q i)) / n - ∫ q, g q ∂uniform2) ^ 2 ∂pairs n ≤ 1 / (4 * n) := by
  have hn' : (0 : ℝ) < n := by exact_mod_cast hn
  have hmp : ∀ i : Fin n, MeasurePreserving (fun q : Fin n → ℝ × ℝ => q i) (pairs n) uniform2 := fun i => measurePreserving_eval (fun _ : Fin n => uniform2) i
  haveI : IsProbabilityMeasure (pairs n) := by unfold pairs; infer_instance
  have hgi : ∀ i : Fin n, Measurable fun q : Fin n → ℝ × ℝ => g (q i) := fun i => hg.comp (measurable_pi_apply i)
  have hbd : ∀ i : Fin n, MemLp (fun q : Fin n → ℝ × ℝ => g (q i)) 2 (pairs n) := fun i =>
    MemLp.of_bound (hgi i).aestronglyMeasurable 1 (Filter.Eventually.of_forall fun q => by rw [Real.norm_eq_abs, abs_le]; constructor <;> linarith [h0 (q i)])
  have hint : ∀ i : Fin n, Integrable (fun q : Fin n → ℝ × ℝ => g (q i)) (pairs n) := fun i => (hbd i).integrable (by norm_num)
  have hE : ∀ i : Fin n, ∫ q, g (q i) ∂pairs n = ∫ q, g q ∂uniform2 := fun i => by
    rw [← (hmp i).map_eq, integral_map (measurable_pi_apply i).aemeasurable hg.aestronglyMeasurable]
  have hmean : ∫ q, (∑ i, g (q i)) / n ∂pairs n = ∫ q, g q ∂uniform2 := by
    rw [integral_div, integral_finset_sum _ fun i _ => hint i]
    simp only [hE, Finset.sum_const, Finset.card_univ, Fintype.card_fin, nsmul_eq_mul]
    field_simp
  refine ⟨hmean, ?_⟩
  have hvar : ProbabilityTheory.variance (∑ i, fun q : Fin n → ℝ × ℝ => g (q i)) (pairs n) ≤ n / 4 := by
    rw [ProbabilityTheory.IndepFun.variance_sum (fun i _ => hbd i)]
    · calc ∑ i : Fin n, ProbabilityTheory.variance (fun q : Fin n → ℝ × ℝ => g (q i)) (pairs n) ≤ ∑ _i : Fin n, (1 / 4 : ℝ) := by
            refine Finset.sum_le_sum fun i _ => ?_
            have := ProbabilityTheory.variance_le_sq_of_bounded (a := 0) (b := 1) (μ := pairs n) (X := fun q => g (q i)) (Filter.Eventually.of_forall fun q => ⟨(h0 _).1, (h0 _).2⟩) (hgi i).aemeasurable
            norm_num at this ⊢
            exact this
        _ = n / 4 := by simp; ring
    · intro i _ j _ hij
      have := ProbabilityTheory.iIndepFun_pi (μ := fun _ : Fin n => uniform2) (X := fun _ => g) (fun _ => hg.aemeasurable)
      exact this.indepFun hij
  have hs : (∑ i, fun q : Fin n → ℝ × ℝ => g (q i)) = fun q => ∑ i, g (q i) := by ext q; simp
  rw [hs] at hvar
  have hm : Measurable fun q : Fin n → ℝ × ℝ => (∑ i, g (q i)) := Finset.measurable_sum _ fun i _ => hgi i
  have h1 : ProbabilityTheory.variance (fun q : Fin n → ℝ × ℝ => (∑ i, g (q i)) / n) (pairs n) ≤ 1 / (4 * n) := by
    have e : (fun q : Fin n → ℝ × ℝ => (∑ i, g (q i)) / n) = fun q => (1 / (n : ℝ)) * ∑ i, g (q i) := by ext q; ring
    rw [e, ProbabilityTheory.variance_const_mul]
    calc (1 / (n : ℝ)) ^ 2 * _ ≤ (1 / (n : ℝ)) ^ 2 * (n / 4) := mul_le_mul_of_nonneg_left hvar (by positivity)
      _ = 1 / (4 * n) := by field_simp
  rw [ProbabilityTheory.variance_eq_integral (hm.div_const _).aemeasurable, hmean] at h1
  exact h1

/-! ### One sample -/

theorem basis_frame (g : Geom) (wi : V3 ℝ) (h : OnSurface g) : ∃ n u v, basisTwosided g wi = (n, u, v) ∧ Frame u v n ∧ (V3.dot wi g.n ≠ 0 → (n = g.n ∨ n = -g.n) ∧ 0 < V3.dot wi n) := by
  by_cases hw : V3.dot wi g.n = 0
  · refine ⟨-g.n, g.u, -g.v, by simp [basisTwosided, hw], ?_, fun h => absurd hw h⟩
    obtain ⟨h1, h2, h3, h4, h5, h6, _⟩ := h
    constructor <;> simp_all [V3.dot] <;> linarith
  · obtain ⟨n, u, v, hb, ho, hp, hs⟩ := twosided g wi h hw
    refine ⟨n, u, v, hb, frame_of ho, fun _ => ⟨?_, hp⟩⟩
    rcases hs with ⟨rfl, _⟩ | ⟨rfl, _⟩
    · exact .inl rfl
    · exact .inr rfl

theorem term_eq (I : Isect) (sp : SI) (d : V3 ℝ) {n u v : V3 ℝ} (hb : basisTwosided sp.geom (-d) = (n, u, v)) (q : ℝ × ℝ) :
    term I sp d q = (Open I sp.geom.p).indicator 1 (lin u v n (sampleCosineWeighted q.1 q.2)) := by
  classical
  simp only [term, hb, lin, Open, Set.indicator_apply, Set.mem_ofPred_eq, Pi.one_apply]
  cases I sp.geom.p ((sampleCosineWeighted q.1 q.2).x • u + (sampleCosineWeighted q.1 q.2).y • v + (sampleCosineWeighted q.1 q.2).z • n) Eps (1 / 5) <;> simp

theorem term_bounds (I : Isect) (sp : SI) (d : V3 ℝ) (q : ℝ × ℝ) : 0 ≤ term I sp d q ∧ term I sp d q ≤ 1 := by
  obtain ⟨n, u, v, hb⟩ : ∃ n u v, basisTwosided sp.geom (-d) = (n, u, v) := ⟨_, _, _, rfl⟩
  rw [term_eq I sp d hb]
  by_cases h : lin u v n (sampleCosineWeighted q.1 q.2) ∈ Open I sp.geom.p <;> simp [h]

theorem measurable_term (I : Isect) (sp : SI) (d : V3 ℝ) (hm : MeasurableSet (Open I sp.geom.p)) : Measurable (term I sp d) := by
  obtain ⟨n, u, v, hb⟩ : ∃ n u v, basisTwosided sp.geom (-d) = (n, u, v) := ⟨_, _, _, rfl⟩
  have : term I sp d = fun q => (Open I sp.geom.p).indicator 1 (lin u v n (sampleCosineWeighted q.1 q.2)) := funext fun q => term_eq I sp d hb q
  rw [this]
  exact (measurable_one.indicator hm).comp ((measurable_lin u v n).comp measurable_cosine)

theorem term_law (I : Isect) (sp : SI) (d : V3 ℝ) (hm : MeasurableSet (Open I sp.geom.p)) {n u v : V3 ℝ} (hb : basisTwosided sp.geom (-d) = (n, u, v)) (hF : Frame u v n) :
    ∫ q, term I sp d q ∂uniform2 = openness I sp.geom.p n := by
  rw [integral_eq_lintegral_of_nonneg_ae (Filter.Eventually.of_forall fun q => (term_bounds I sp d q).1) (measurable_term I sp d hm).aestronglyMeasurable, openness]
  congr 1
  have e : ∀ q : ℝ × ℝ, ENNReal.ofReal (term I sp d q) = (Open I sp.geom.p).indicator (1 : V3 ℝ → ℝ≥0∞) (lin u v n (sampleCosineWeighted q.1 q.2)) := by
    intro q
    rw [term_eq I sp d hb]
    by_cases h : lin u v n (sampleCosineWeighted q.1 q.2) ∈ Open I sp.geom.p <;> simp [h]
  simp_rw [e]
  rw [law_cosine hF (measurable_one.indicator hm), ← lintegral_indicator hm]
  refine lintegral_congr fun x => ?_
  by_cases h : x ∈ Open I sp.geom.p <;> simp [h]

theorem loopV_eq (I : Isect) (sp : SI) (d : V3 ℝ) (rnd : ℕ → ℝ × ℝ) : ∀ k i V, loopV I sp d rnd i k V = V + ∑ j ∈ Finset.range k, term I sp d (rnd (i + j))
  | 0, i, V => by simp [loopV]
  | k + 1, i, V => by
    rw [loopV, loopV_eq I sp d rnd k, Finset.sum_range_succ', add_zero, add_assoc]
    congr 1
    rw [add_comm]
    congr 1
    refine Finset.sum_congr rfl fun j _ => ?_
    congr 2
    omega

/-! ### The image -/

theorem seen_unique {W : World} {I : Isect} {w h x y : ℕ} {cam : Camera} (hs : Sees W cam) (hp : cam.Proper) {sp sp' : SI} {d d' : V3 ℝ} (h1 : Seen W I w h x y sp d) (h2 : Seen W I w h x y sp' d') : sp = sp' ∧ d = d' := by
  obtain ⟨n, hn, hc⟩ := hs
  obtain ⟨c1, ⟨n1, hn1, hc1⟩, a1, b1, e1⟩ := h1
  obtain ⟨c2, ⟨n2, hn2, hc2⟩, a2, b2, e2⟩ := h2
  rw [hn] at hn1 hn2
  obtain rfl := Option.some.inj hn1
  obtain rfl := Option.some.inj hn2
  rw [hc] at hc1 hc2
  obtain rfl := Option.some.inj hc1
  obtain rfl := Option.some.inj hc2
  obtain rfl := towards_unique hp a1 a2 b1 b2
  rw [e1] at e2
  exact ⟨Option.some.inj e2, rfl⟩

theorem call_eq (W : World) (I : Isect) (n : ℕ) (hn : 0 < n) (rnd : ℕ → ℝ × ℝ) (w h i : ℕ) (cam : Camera) (hs : Sees W cam) (hp : cam.Proper)
    (hf : ∀ sp d, Seen W I w h (i % w) (i / w) sp d → sp.geom.infinite = false) :
    ((¬ ∃ sp d, Seen W I w h (i % w) (i / w) sp d) ∧ call W I n rnd w h i = .ret none) ∨
      ∃ sp d, Seen W I w h (i % w) (i / w) sp d ∧ call W I n rnd w h i = .ret (some ((i % w, i / w), V3.all ((∑ j : Fin n, term I sp d (rnd j)) / n))) := by
  obtain ⟨m, hm, hc⟩ := hs
  obtain ⟨d, hd, h1, ht⟩ := C47_primary cam hp ((((i % w : ℕ) : ℝ) + 1 / 2) / w) ((((i / w : ℕ) : ℝ) + 1 / 2) / h)
  cases ho : I cam.position d Eps Surface.Inf with
  | none =>
    refine .inl ⟨?_, by simp only [call, hm, hc, hd, ho]⟩
    rintro ⟨sp, d', c', ⟨m', hm', hc'⟩, h1', ht', ho'⟩
    rw [hm] at hm'
    obtain rfl := Option.some.inj hm'
    rw [hc] at hc'
    obtain rfl := Option.some.inj hc'
    obtain rfl := towards_unique hp h1 h1' ht ht'
    rw [ho] at ho'
    cases ho'
  | some sp =>
    have hseen : Seen W I w h (i % w) (i / w) sp d := ⟨cam, ⟨m, hm, hc⟩, h1, ht, ho⟩
    refine .inr ⟨sp, d, hseen, ?_⟩
    have hfin := hf sp d hseen
    have hn' : (n : ℤ) ≠ 0 := by omega
    simp only [call, hm, hc, hd, ho, hfin, Bool.false_eq_true, false_and, if_false, hn', Int.toNat_natCast, loopV_eq, zero_add, Int.cast_natCast]
    rw [Finset.sum_range]

theorem calls_spec (W : World) (I : Isect) (n : ℕ) (hn : 0 < n) (rnd : ℕ → ℕ → ℝ × ℝ) (w h : ℕ) (hw : 0 < w) (cam : Camera) (hs : Sees W cam) (hp : cam.Proper)
    (hf : ∀ x y sp d, Seen W I w h x y sp d → sp.geom.infinite = false) (g : ℕ → V3 ℝ) (P : ℕ → Prop) [DecidablePred P]
    (hP : ∀ i, P i ↔ ∃ sp d, Seen W I w h (i % w) (i / w) sp d)
    (hg : ∀ i sp d, Seen W I w h (i % w) (i / w) sp d → g i = V3.all ((∑ j : Fin n, term I sp d (rnd i j)) / n)) :
    ∀ (is : List ℕ) (b : Bitmap (V3 ℝ)), WF b → b.w = w → b.h = h → (∀ i ∈ is, i < w * h) →
      ∃ f, calls W I n rnd b is = .ret f ∧ WF f ∧ f.w = w ∧ f.h = h ∧ ∀ x y, x < w → y < h → pixel f x y = if y * w + x ∈ is ∧ P (y * w + x) then some (g (y * w + x)) else pixel b x y
  | [], b, hb, hbw, hbh, _ => ⟨b, rfl, hb, hbw, hbh, fun x y _ _ => by simp⟩
  | i :: is, b, hb, hbw, hbh, hi => by
    have hil := hi i (by simp)
    have hx : i % w < b.w := by rw [hbw]; exact Nat.mod_lt _ hw
    have hy : i / w < b.h := by rw [hbh]; exact Nat.div_lt_of_lt_mul hil
    rcases call_eq W I n hn (rnd i) w h i cam hs hp (hf _ _) with ⟨hno, hc⟩ | ⟨sp, d, hseen, hc⟩
    · obtain ⟨f, f1, f0, f2, f3, f4⟩ := calls_spec W I n hn rnd w h hw cam hs hp hf g P hP hg is b hb hbw hbh (fun j hj => hi j (by simp [hj]))
      refine ⟨f, by simp only [calls, hbw, hbh, hc, f1], f0, f2, f3, fun x y hxw hyh => ?_⟩
      rw [f4 x y hxw hyh]
      by_cases h2 : y * w + x = i
      · have : ¬ P (y * w + x) := by rw [h2, hP]; exact hno
        simp [this]
      · simp [h2]
    · obtain ⟨b', e, q1, q2, q3⟩ := (C25_write b hb (i % w) (i / w) hx hy (g i) id).1
      have hdim : b'.w = b.w ∧ b'.h = b.h := by
        unfold setPixel at e
        obtain ⟨dd, _, rfl⟩ := Option.map_eq_some_iff.mp e
        exact ⟨rfl, rfl⟩
      obtain ⟨f, f1, f0, f2, f3, f4⟩ := calls_spec W I n hn rnd w h hw cam hs hp hf g P hP hg is b' q1 (hdim.1.trans hbw) (hdim.2.trans hbh) (fun j hj => hi j (by simp [hj]))
      rw [hg i sp d hseen] at e
      refine ⟨f, by simp only [calls, hbw, hbh, hc, e, f1], f0, f2, f3, fun x y hxw hyh => ?_⟩
      rw [f4 x y hxw hyh]
      by_cases h1 : y * w + x ∈ is ∧ P (y * w + x)
      · simp [h1]
      · rw [if_neg h1]
        by_cases h2 : y * w + x = i
        · subst h2
          have ex : (y * w + x) % w = x := by rw [Nat.add_comm, Nat.add_mul_mod_self_right, Nat.mod_eq_of_lt hxw]
          have ey : (y * w + x) / w = y := by rw [Nat.add_comm, Nat.add_mul_div_right _ _ hw, Nat.div_eq_of_lt hxw, Nat.zero_add]
          rw [if_pos ⟨by simp, (hP _).mpr ⟨sp, d, hseen⟩⟩]
          rw [ex, ey] at q2
          exact q2
        · rw [if_neg (by simp only [List.mem_cons]; tauto)]
          refine q3 x y (by rw [hbw]; exact hxw) ?_
          rintro e
          obtain ⟨rfl, rfl⟩ := Prod.mk.inj e
          exact h2 (by rw [Nat.mul_comm]; exact Nat.div_add_mod i w)

open Classical in
/-- C99 (partial). Rendering with a positive number n of samples returns, with any number of threads and any interleaving, and a pixel that sees a surface gets a grey value in [0, 1] that depends on nothing but the random numbers drawn for it: its mean over
    independent random numbers is the openness of the seen point on the side of the surface that faces the camera, and its mean squared error is at most 1 / (4 n). Pixels that see nothing keep what they showed before.
    Missing: environment lights in view (`C99_negation_sky`), no samples (`C99_negation_samples`), pixels that see nothing getting a value (`C99_negation_film`), independence of the schedule (the random numbers of a pixel come from the generator of the thread). -/
theorem C99_image_partial (W : World) (I : Isect) (n : ℕ) (hn : 0 < n) (cam : Camera) (hs : Sees W cam) (hp : cam.Proper) (w h : ℕ)
    (hsurf : ∀ x y sp d, Seen W I w h x y sp d → sp.geom.infinite = false ∧ OnSurface sp.geom) (hm : ∀ p, MeasurableSet (Open I p)) :
    ∃ val : ℕ → ℕ → (Fin n → ℝ × ℝ) → ℝ, (∀ x y q, 0 ≤ val x y q ∧ val x y q ≤ 1) ∧
      (∀ (b : Bitmap (V3 ℝ)) (env : Env) (count : ℕ → ℕ) (rnd : ℕ → ℕ → ℝ × ℝ), WF b → b.w = w → b.h = h → env.Complete (w * h) →
        ∃ f, render W I n rnd b env count = .ret f ∧ f.w = w ∧ f.h = h ∧ ∀ x y, x < w → y < h →
          pixel f x y = if ∃ sp d, Seen W I w h x y sp d then some (V3.all (val x y fun i => rnd (y * w + x) i)) else pixel b x y) ∧
      ∀ x y sp d, Seen W I w h x y sp d → V3.dot d sp.geom.n ≠ 0 → ∃ N : V3 ℝ, (N = sp.geom.n ∨ N = -sp.geom.n) ∧ 0 < V3.dot (-d) N ∧
        ∫ q, val x y q ∂pairs n = openness I sp.geom.p N ∧ ∫ q, (val x y q - openness I sp.geom.p N) ^ 2 ∂pairs n ≤ 1 / (4 * n) := by
  have hn' : (0 : ℝ) < n := by exact_mod_cast hn
  let val : ℕ → ℕ → (Fin n → ℝ × ℝ) → ℝ := fun x y q => if hx : ∃ p : SI × V3 ℝ, Seen W I w h x y p.1 p.2 then (∑ j, term I hx.choose.1 hx.choose.2 (q j)) / n else 0
  have hval : ∀ x y sp d q, Seen W I w h x y sp d → val x y q = (∑ j, term I sp d (q j)) / n := by
    intro x y sp d q hse
    have hx : ∃ p : SI × V3 ℝ, Seen W I w h x y p.1 p.2 := ⟨(sp, d), hse⟩
    obtain ⟨e1, e2⟩ := seen_unique hs hp hx.choose_spec hse
    simp only [val, dif_pos hx, e1, e2]
  refine ⟨val, ?_, ?_, ?_⟩
  · intro x y q
    by_cases hx : ∃ p : SI × V3 ℝ, Seen W I w h x y p.1 p.2
    · rw [hval x y _ _ q hx.choose_spec]
      constructor
      · exact div_nonneg (Finset.sum_nonneg fun j _ => (term_bounds I _ _ _).1) hn'.le
      · rw [div_le_one hn']
        calc _ ≤ ∑ _j : Fin n, (1 : ℝ) := Finset.sum_le_sum fun j _ => (term_bounds I _ _ _).2
          _ = n := by simp
    · have hv : val x y q = 0 := dif_neg hx
      rw [hv]
      norm_num
  · intro b env count rnd hb hbw hbh hE
    have hperm := loop_calls env 0 count (w * h) hE
    unfold render
    rw [hbw, hbh]
    rcases Nat.eq_zero_or_pos w with h0 | hw
    · have hnil : (loop env 0 count (w * h)).calls = [] := by
        have := hperm.length_eq
        rw [List.length_range, h0, Nat.zero_mul] at this
        rw [h0, Nat.zero_mul]
        exact List.length_eq_zero_iff.mp this
      rw [hnil]
      exact ⟨b, rfl, hbw, hbh, fun x y hx => by omega⟩
    obtain ⟨f, f1, f0, f2, f3, f4⟩ := calls_spec W I n hn rnd w h hw cam hs hp (fun x y sp d hse => (hsurf x y sp d hse).1) (fun i => V3.all (val (i % w) (i / w) fun j => rnd i j))
      (fun i => ∃ sp d, Seen W I w h (i % w) (i / w) sp d) (fun i => Iff.rfl) (fun i sp d hse => by rw [hval _ _ sp d _ hse]) _ b hb hbw hbh (fun i hi => List.mem_range.mp (hperm.mem_iff.mp hi))
    refine ⟨f, f1, f2, f3, fun x y hx hy => ?_⟩
    have hi : y * w + x < w * h := by nlinarith
    have hmem := hperm.mem_iff.mpr (List.mem_range.mpr hi)
    have ex : (y * w + x) % w = x := by rw [Nat.add_comm, Nat.add_mul_mod_self_right, Nat.mod_eq_of_lt hx]
    have ey : (y * w + x) / w = y := by rw [Nat.add_comm, Nat.add_mul_div_right _ _ hw, Nat.div_eq_of_lt hx, Nat.zero_add]
    rw [f4 x y hx hy]
    simp only [hmem, true_and, ex, ey]
  · intro x y sp d hse hd
    have hd' : V3.dot (-d) sp.geom.n ≠ 0 := by
      intro hc
      apply hd
      simp only [V3.dot, V3.neg_x, V3.neg_y, V3.neg_z] at hc ⊢
      linarith
    obtain ⟨N, u, v, hb, hF, hN⟩ := basis_frame sp.geom (-d) (hsurf x y sp d hse).2
    obtain ⟨hN1, hN2⟩ := hN hd'
    obtain ⟨l1, l2⟩ := mean_law n hn (term I sp d) (measurable_term I sp d (hm _)) (term_bounds I sp d)
    rw [term_law I sp d (hm _) hb hF] at l1 l2
    refine ⟨N, hN1, hN2, ?_, ?_⟩
    · simp only [hval x y sp d _ hse, l1]
    · simp only [hval x y sp d _ hse]
      exact l2

/-- C99. Points with nothing around them on the side of N have the openness 1, and points with something in every direction within the distance 1/5 have the openness 0; openness is between these, and the more directions are open the greater. -/
theorem C99_openness (I : Isect) (p N : V3 ℝ) (hN : V3.dot N N = 1) :
    ((∀ d, 0 < V3.dot d N → I p d Eps (1 / 5) = none) → openness I p N = 1) ∧ ((∀ d, 0 < V3.dot d N → I p d Eps (1 / 5) ≠ none) → openness I p N = 0) ∧ 0 ≤ openness I p N ∧ openness I p N ≤ 1 ∧
      ∀ I' : Isect, (∀ d, I p d Eps (1 / 5) = none → I' p d Eps (1 / 5) = none) → openness I p N ≤ openness I' p N := by
  have hF : Frame (orthonormalBasis N false).1 (orthonormalBasis N false).2 N := frame_of (C32_basis N false hN)
  have htot : ∫⁻ d, ENNReal.ofReal (V3.dot d N / Real.pi) ∂solidAngle = 1 := by
    have := law_cosine hF (f := 1) measurable_one
    simp only [Pi.one_apply, mul_one, lintegral_const, measure_univ] at this
    exact this.symm
  have hle : ∀ I : Isect, ∫⁻ d in Open I p, ENNReal.ofReal (V3.dot d N / Real.pi) ∂solidAngle ≤ 1 := fun I => htot ▸ setLIntegral_le_lintegral _ _
  have hne : ∀ I : Isect, ∫⁻ d in Open I p, ENNReal.ofReal (V3.dot d N / Real.pi) ∂solidAngle ≠ ∞ := fun I => ((hle I).trans_lt ENNReal.one_lt_top).ne
  have hzero : ∀ d, ¬ 0 < V3.dot d N → ENNReal.ofReal (V3.dot d N / Real.pi) = 0 := fun d hd => ENNReal.ofReal_eq_zero.mpr (div_nonpos_of_nonpos_of_nonneg (not_lt.mp hd) Real.pi_pos.le)
  have hpos : MeasurableSet {d : V3 ℝ | 0 < V3.dot d N} := measurableSet_lt measurable_const (measurable_dotc N)
  have hhalf : ∫⁻ d in {d : V3 ℝ | 0 < V3.dot d N}, ENNReal.ofReal (V3.dot d N / Real.pi) ∂solidAngle = 1 := by
    rw [← htot, ← lintegral_indicator hpos]
    refine lintegral_congr fun d => ?_
    by_cases hd : 0 < V3.dot d N
    · rw [Set.indicator_of_mem (by exact hd)]
    · rw [Set.indicator_of_notMem (by exact hd), hzero d hd]
  refine ⟨fun h => ?_, fun h => ?_, ENNReal.toReal_nonneg, ?_, fun I' h => ?_⟩
  · have : ∫⁻ d in Open I p, ENNReal.ofReal (V3.dot d N / Real.pi) ∂solidAngle = 1 := le_antisymm (hle I) (by rw [← hhalf]; exact lintegral_mono_set fun d hd => h d hd)
    rw [openness, this, ENNReal.toReal_one]
  · have : ∫⁻ d in Open I p, ENNReal.ofReal (V3.dot d N / Real.pi) ∂solidAngle = 0 := by
      refine le_antisymm ?_ bot_le
      have hneg : ∫⁻ d in {d : V3 ℝ | 0 < V3.dot d N}ᶜ, ENNReal.ofReal (V3.dot d N / Real.pi) ∂solidAngle = 0 := by
        rw [setLIntegral_congr_fun hpos.compl (g := 0) (fun d hd => hzero d hd)]
        simp
      rw [← hneg]
      exact lintegral_mono_set fun d hd hc => h d hc hd
    rw [openness, this, ENNReal.toReal_zero]
  · have := ENNReal.toReal_mono ENNReal.one_ne_top (hle I)
    rwa [ENNReal.toReal_one] at this
  · exact ENNReal.toReal_mono (hne I') (lintegral_mono_set fun d hd => h d hd)

/-- C99 (negation). With an environment light in view rendering is undefined, whatever the schedule: the position and normal of the point at infinity are read, which nobody initialised. -/
theorem C99_negation_sky : ∃ (W : World) (I : Isect) (cam : Camera), Sees W cam ∧ cam.Proper ∧ (∀ o d sp, I o d Eps Surface.Inf = some sp → HitOk W sp) ∧
    ∀ (n : ℕ) (b : Bitmap (V3 ℝ)) (env : Env) (count : ℕ → ℕ) (rnd : ℕ → ℕ → ℝ × ℝ), 0 < n → 0 < b.w * b.h → env.Complete (b.w * b.h) → render W I n rnd b env count = .undef := by
  refine ⟨exSky, fun o d _ _ => exSkyQ.isect o d, exCam, ⟨_, rfl, rfl⟩, Transport.exCam_proper, ?_, ?_⟩
  · intro o d sp h
    cases h
    exact ⟨fun _ => ⟨_, rfl⟩, fun h => by cases h⟩
  · intro n b env count rnd hn hpos hE
    have hperm := loop_calls env 0 count (b.w * b.h) hE
    unfold render
    cases hl : (loop env 0 count (b.w * b.h)).calls with
    | nil =>
      have := hperm.length_eq
      rw [hl, List.length_range] at this
      exact absurd this.symm hpos.ne'
    | cons i is =>
      have hcall : ∀ w h, call exSky (fun o d _ _ => exSkyQ.isect o d) n (rnd i) w h i = .undef := by
        intro w h
        obtain ⟨d, hd, _⟩ := C47_primary exCam Transport.exCam_proper ((((i % w : ℕ) : ℝ) + 1 / 2) / w) ((((i / w : ℕ) : ℝ) + 1 / 2) / h)
        have hc : exSky.st.camera = some 3 := rfl
        have hc' : exSky.cameraAt 3 = some exCam := rfl
        simp only [call, hc, hc', hd]
        exact if_pos ⟨rfl, by exact_mod_cast hn⟩
      simp only [calls, hcall]

/-- C99 (negation). Without samples a pixel that sees a surface has no value. -/
theorem C99_negation_samples (W : World) (I : Isect) (cam : Camera) (hs : Sees W cam) (hp : cam.Proper) (rnd : ℕ → ℝ × ℝ) (w h i : ℕ) (sp : SI) (d : V3 ℝ) (hse : Seen W I w h (i % w) (i / w) sp d) : call W I 0 rnd w h i = .undef := by
  obtain ⟨m, hm, hc⟩ := hs
  obtain ⟨d', hd, h1, ht⟩ := C47_primary cam hp ((((i % w : ℕ) : ℝ) + 1 / 2) / w) ((((i / w : ℕ) : ℝ) + 1 / 2) / h)
  obtain ⟨c', ⟨m', hm', hc'⟩, h1', ht', ho'⟩ := hse
  rw [hm] at hm'
  obtain rfl := Option.some.inj hm'
  rw [hc] at hc'
  obtain rfl := Option.some.inj hc'
  obtain rfl := towards_unique hp h1 h1' ht ht'
  simp only [call, hm, hc, hd, ho']
  simp

/-- C99 (negation). The film is not cleared: a scene in which nothing is seen leaves the whole film as it was, so that the image depends on what was rendered before. -/
theorem C99_negation_film : ∃ (W : World) (I : Isect) (cam : Camera), Sees W cam ∧ cam.Proper ∧ ∀ (n : ℕ) (b : Bitmap (V3 ℝ)) (env : Env) (count : ℕ → ℕ) (rnd : ℕ → ℕ → ℝ × ℝ), 0 < n → WF b → env.Complete (b.w * b.h) →
    ∃ f, render W I n rnd b env count = .ret f ∧ ∀ x y, x < b.w → y < b.h → pixel f x y = pixel b x y := by
  refine ⟨exSky, fun _ _ _ _ => none, exCam, ⟨_, rfl, rfl⟩, Transport.exCam_proper, fun n b env count rnd hn hb hE => ?_⟩
  have hno : ∀ x y sp d, ¬ Seen exSky (fun _ _ _ _ => none) b.w b.h x y sp d := by
    rintro x y sp d ⟨_, _, _, _, h⟩
    cases h
  obtain ⟨val, _, hr, _⟩ := C99_image_partial exSky (fun _ _ _ _ => none) n hn exCam ⟨_, rfl, rfl⟩ Transport.exCam_proper b.w b.h (fun x y sp d h => absurd h (hno x y sp d)) (fun p => by simp [Open])
  obtain ⟨f, f1, _, _, f4⟩ := hr b env count rnd hb rfl rfl hE
  refine ⟨f, f1, fun x y hx hy => ?_⟩
  rw [f4 x y hx hy, if_neg]
  rintro ⟨sp, d, h⟩
  exact hno x y sp d h

open Classical in
/-- A floor with a wall on the side of positive x. -/
noncomputable def exCorner : Isect := fun o d _ tmax => if tmax = Surface.Inf then (if d.z < 0 then some (Transport.floorAt o.x o.y) else none) else if 0 < d.x then some (Transport.floorAt 0 0) else none

theorem exCorner_seen {w h x y : ℕ} {sp : SI} {d : V3 ℝ} (hse : Seen Transport.exFloor exCorner w h x y sp d) : d.z < 0 ∧ ∃ a b, sp = Transport.floorAt a b := by
  obtain ⟨cam, _, _, _, ho⟩ := hse
  simp only [exCorner, if_true] at ho
  split at ho
  · rename_i hz
    exact ⟨hz, _, _, (Option.some.inj ho).symm⟩
  · cases ho

theorem exCorner_surface {w h x y : ℕ} {sp : SI} {d : V3 ℝ} (hse : Seen Transport.exFloor exCorner w h x y sp d) : sp.geom.infinite = false ∧ OnSurface sp.geom := by
  obtain ⟨_, a, b, rfl⟩ := exCorner_seen hse
  exact ⟨rfl, Transport.floor_on a b⟩

theorem fifth_ne_inf : ¬ ((1 / 5 : ℝ) = Surface.Inf) := by norm_num [Surface.Inf]

theorem exCorner_open (p : V3 ℝ) : Open exCorner p = {d | ¬ 0 < d.x} := by
  ext d
  simp only [Open, exCorner, Set.mem_ofPred_eq, if_neg fifth_ne_inf]
  by_cases hd : 0 < d.x <;> simp [hd]

theorem exCorner_measurable (p : V3 ℝ) : MeasurableSet (Open exCorner p) := by
  rw [exCorner_open]
  exact (measurableSet_lt measurable_const measurable_x).compl

/-- The pixels of a picture of the corner see the floor. -/
theorem exCorner_sees (w h x y : ℕ) : ∃ sp d, Seen Transport.exFloor exCorner w h x y sp d := by
  obtain ⟨d, hd, h1, ht⟩ := C47_primary exCam Transport.exCam_proper (((x : ℝ) + 1 / 2) / w) (((y : ℝ) + 1 / 2) / h)
  have hz : d.z < 0 := by
    obtain ⟨k, hk, he⟩ := ht
    have hz := congrArg V3.z he
    simp [Camera.screen, exCam] at hz ⊢
    nlinarith
  exact ⟨Transport.floorAt exCam.position.x exCam.position.y, d, exCam, ⟨_, rfl, rfl⟩, h1, ht, by simp [exCorner, hz]⟩

/-- The hypotheses are met: a picture of the corner, of any size, with the floor in view of every pixel and the directions with positive x closed. -/
example : Sees Transport.exFloor exCam ∧ exCam.Proper ∧ (∀ w h x y sp d, Seen Transport.exFloor exCorner w h x y sp d → sp.geom.infinite = false ∧ OnSurface sp.geom) ∧ (∀ p, MeasurableSet (Open exCorner p)) ∧
    (∀ w h x y, ∃ sp d, Seen Transport.exFloor exCorner w h x y sp d) :=
  ⟨⟨_, rfl, rfl⟩, Transport.exCam_proper, fun _ _ _ _ _ _ h => exCorner_surface h, exCorner_measurable, exCorner_sees⟩

end LM.Ao
