import Verif.Props.C84_Medium
import Mathlib.MeasureTheory.Function.Floor
/-
  C84 for the volumes of the library.
-/
namespace LM.Tracking
open MeasureTheory LM LM.Solid LM.Volume LM.Bound LM.MathF LM.Material LM.Surface Set
open scoped ENNReal Topology

/-- The density is majorized by the announced maximum, and a measurable function of the point. -/
def Regular (v : Vol) : Prop := Majorized v ∧ ∃ f : V3 ℝ → ℝ, Measurable f ∧ ∀ p, v.evalScalar p = some (f p)

/-- The density volumes that can be made of the volumes of the library, with non-negative densities and non-degenerate shapes. -/
inductive Library : Vol → Prop
  | constant (b : Option (Box ℝ)) (color : Option (V3 ℝ)) (s : ℝ) (v : Vol) : 0 ≤ s → constant b color (some s) = some v → Library v
  | sphere (color : Option (V3 ℝ)) (s : ℝ) (pos : V3 ℝ) (radius : ℝ) (v : Vol) : 0 ≤ s → sphere color (some s) pos radius = some v → Library v
  | gaussian (color : Option (V3 ℝ)) (s : ℝ) (pos sigma : V3 ℝ) (v : Vol) : 0 ≤ s → sigma.x ≠ 0 → sigma.y ≠ 0 → sigma.z ≠ 0 → gaussian color (some s) pos sigma = some v → Library v
  | checker (b : Box ℝ) : b.min.x < b.max.x → b.min.y < b.max.y → Library (checker b)
  | multi (alb den : List Vol) (v : Vol) : (∀ w ∈ den, Library w) → multi alb den = some v → Library v

theorem measurable_norm2 (pos : V3 ℝ) : Measurable fun p : V3 ℝ => Real.sqrt (V3.dot (pos - p) (pos - p)) := by
  simp only [V3.dot, V3.sub_x, V3.sub_y, V3.sub_z]
  have := measurable_x; have := measurable_y; have := measurable_z
  fun_prop

theorem measurableSet_In (b : Box ℝ) : MeasurableSet {p : V3 ℝ | In p b} := by
  have := measurable_x; have := measurable_y; have := measurable_z
  simp only [In]
  refine MeasurableSet.inter (s₁ := {p : V3 ℝ | b.min.x ≤ p.x ∧ p.x ≤ b.max.x}) ?_ (MeasurableSet.inter (s₁ := {p : V3 ℝ | b.min.y ≤ p.y ∧ p.y ≤ b.max.y}) (s₂ := {p : V3 ℝ | b.min.z ≤ p.z ∧ p.z ≤ b.max.z}) ?_ ?_)
  · exact (measurableSet_le measurable_const measurable_x).inter (measurableSet_le measurable_x measurable_const)
  · exact (measurableSet_le measurable_const measurable_y).inter (measurableSet_le measurable_y measurable_const)
  · exact (measurableSet_le measurable_const measurable_z).inter (measurableSet_le measurable_z measurable_const)

theorem measurable_toInt : Measurable toInt := by
  unfold toInt
  exact Measurable.ite measurableSet_Iio Int.measurable_ceil Int.measurable_floor

/-- C84. Every density volume of the library, however it is composed, meets the conditions of the theorems: it is majorized and measurable. -/
theorem C84_library (v : Vol) (h : Library v) : Regular v := by
  classical
  induction h with
  | constant b color s v hs hv =>
    obtain ⟨w, h1, h2, h3⟩ := C57_constant b color s hs
    rw [hv] at h1; cases h1
    exact ⟨h2, fun _ => s, measurable_const, h3⟩
  | sphere color s pos radius v hs hv =>
    obtain ⟨w, h1, h2, _⟩ := C57_sphere color s pos radius hs
    rw [hv] at h1; cases h1
    refine ⟨h2, fun p => s * (if Real.sqrt (V3.dot (pos - p) (pos - p)) < radius then 1 else 0), ?_, ?_⟩
    · exact measurable_const.mul (Measurable.ite (measurableSet_lt (measurable_norm2 pos) measurable_const) measurable_const measurable_const)
    · intro p
      simp only [Volume.sphere, reduceCtorEq, and_false, if_false, Option.some.injEq] at hv
      subst hv; rfl
  | gaussian color s pos sigma v hs hx hy hz hv =>
    obtain ⟨w, h1, h2, _⟩ := C57_gaussian color s pos sigma hs hx hy hz
    rw [hv] at h1; cases h1
    refine ⟨h2, fun p => s * Real.exp (-(1 / 2) * ((pos - p).x * (pos - p).x / (sigma.x * sigma.x) + (pos - p).y * (pos - p).y / (sigma.y * sigma.y) + (pos - p).z * (pos - p).z / (sigma.z * sigma.z))), ?_, ?_⟩
    · simp only [V3.sub_x, V3.sub_y, V3.sub_z]
      have := measurable_x; have := measurable_y; have := measurable_z
      fun_prop
    · intro p
      simp only [Volume.gaussian, reduceCtorEq, and_false, if_false, Option.some.injEq] at hv
      subst hv
      simp only [divF, mul_self_ne_zero.mpr hx, mul_self_ne_zero.mpr hy, mul_self_ne_zero.mpr hz, if_false, Option.bind_eq_bind, Option.bind_some, pure]
  | checker b hx hy =>
    have h1 : b.max.x - b.min.x ≠ 0 := by linarith
    have h2 : b.max.y - b.min.y ≠ 0 := by linarith
    refine ⟨(C57_checker b hx hy).1, fun p => if Int.tmod (toInt ((p.x - b.min.x) / (b.max.x - b.min.x) / (1 / 5)) + toInt ((p.y - b.min.y) / (b.max.y - b.min.y) / (1 / 5))) 2 = 0 then 1 else 0, ?_, ?_⟩
    · have mx : Measurable fun p : V3 ℝ => toInt ((p.x - b.min.x) / (b.max.x - b.min.x) / (1 / 5)) :=
        measurable_toInt.comp (((measurable_x.sub_const _).div_const _).div_const _)
      have my : Measurable fun p : V3 ℝ => toInt ((p.y - b.min.y) / (b.max.y - b.min.y) / (1 / 5)) :=
        measurable_toInt.comp (((measurable_y.sub_const _).div_const _).div_const _)
      exact Measurable.ite ((mx.add my) (t := {z : ℤ | Int.tmod z 2 = 0}) (Set.to_countable _).measurableSet) measurable_const measurable_const
    · intro p
      simp only [Volume.checker, divF, h1, h2, if_false, Option.bind_eq_bind, Option.bind_some, pure]
  | multi alb den v hden hv ih =>
    have hv' := hv
    simp only [Volume.multi] at hv'
    split at hv'
    · cases hv'
    next hl =>
    split at hv'
    · cases hv'
    next hc =>
    have hlen : alb.length = den.length := by omega
    have h0 : den ≠ [] := by rintro rfl; simp at hl
    obtain ⟨w, h1, h2, _, _, h5⟩ := C57_multi alb den h0 hlen (fun v hv => by
        simp only [Bool.or_eq_true, not_or, List.any_eq_true, not_exists, not_and, Bool.not_eq_true', Bool.not_eq_false] at hc
        simpa using hc.1 v hv) (fun v hv => (ih v hv).1)
    rw [hv] at h1; cases h1
    choose! f hf using fun v (hv : v ∈ den) => (ih v hv).2
    refine ⟨h2, fun p => (den.map (fun w => if In p w.bound then f w p else 0)).sum, ?_, fun p => h5 p (fun w => f w p) (fun w hw => (hf w hw).2 p)⟩
    have : ∀ l : List Vol, (∀ w ∈ l, w ∈ den) → Measurable fun p => (l.map (fun w => if In p w.bound then f w p else 0)).sum := by
      intro l
      induction l with
      | nil => intro _; simp only [List.map_nil, List.sum_nil]; exact measurable_const
      | cons w l il =>
        intro hw
        simp only [List.map_cons, List.sum_cons]
        exact (Measurable.ite (measurableSet_In w.bound) (hf w (hw w (by simp))).1 measurable_const).add (il fun x hx => hw x (by simp [hx]))
    exact this den fun _ h => h

/-- C84 for the media of the library: the density any volume of the library (not identically zero), the albedo a constant colour. Missing: rays running inside a face plane of the bound
    (C58_negation_graze), and densities that are identically zero, for which the code divides by zero (see `C84_empty_partial`). -/
theorem C84_media_partial (density albedo : Vol) (h : Library density) (hpos : density.maxScalar ≠ some 0) (C : V3 ℝ) (hC : ∀ p, albedo.evalColor p = some C)
    (r : RayK ℝ) (tmin tmax : ℝ) (hg : NoGraze density.bound r) (i : Fin 3) :
    ∃ σ : ℝ → ℝ, (∀ t, density.evalScalar (r.o + t • r.d) = some (σ t)) ∧
      Expects (heterogeneousTransmittance density r tmin tmax) (fun T => ENNReal.ofReal (chan i T)) (ENNReal.ofReal (transmittance density.bound σ r.o r.d tmin tmax)) ∧
      (∀ (L : V3 ℝ → ℝ≥0∞) (w : ℝ≥0∞), Measurable L →
        Expects (heterogeneousDistance density albedo r tmin tmax) (along i L w) (radiance density.bound σ (fun _ => chan i C) r.o r.d tmin tmax L w)) ∧
      Expects (heterogeneousTransmittance density r tmin tmax) (fun _ => 1) 1 ∧ Expects (heterogeneousDistance density albedo r tmin tmax) (fun _ => 1) 1 := by
  obtain ⟨hd, f, hf, hv⟩ := C84_library density h
  have hm : Measurable fun t : ℝ => f (r.o + t • r.d) := hf.comp (measurable_ray r.o r.d)
  obtain ⟨a1, a2⟩ := C84_ratio_partial density r tmin tmax hg hd hpos _ hm (fun t => hv _) i
  have b := fun L hL w => C84_delta_partial density albedo r tmin tmax hg hd hpos _ (fun _ => chan i C) hm (fun t => hv _) i measurable_const (fun t _ => ⟨C, hC _, rfl⟩) L hL w
  exact ⟨_, fun t => hv _, a1, fun L w hL => (b L hL w).1, a2, (b (fun _ => 0) measurable_const 0).2⟩

/-! ### A ball of fog -/

/-- volume::sphere of density 2 and radius 1 around the origin. -/
noncomputable def ball : Vol := ⟨sphereBound 0 1, true, some 2, fun p => (some (2 : ℝ)).map (fun m => m * (if Real.sqrt (V3.dot (0 - p) (0 - p)) < 1 then 1 else 0)), false, fun _ => none⟩

theorem ball_made : sphere none (some 2) 0 1 = some ball := by simp only [sphere, ball, reduceCtorEq, and_false, if_false]; rfl

/-- A ray through the centre of the ball. -/
def through : RayK ℝ := ⟨⟨0, 0, -3⟩, ⟨0, 0, 1⟩, (false, false, false)⟩

theorem through_inside : inside ball.bound through.o through.d 0 10 = Icc (3 - (1.73205080757 + Eps)) (3 + (1.73205080757 + Eps)) := by
  ext t
  simp only [inside, ball, sphereBound, through, V3.all, mem_ofPred_eq, mem_Icc, V3.sub_x, V3.sub_y, V3.sub_z, V3.add_x, V3.add_y, V3.add_z, V3.zero_x, V3.zero_y, V3.zero_z, Eps]
  constructor
  · rintro ⟨_, _, _, _, h1, h2⟩; exact ⟨by linarith, by linarith⟩
  · rintro ⟨h1, h2⟩
    norm_num at h1 h2 ⊢
    exact ⟨by linarith, by linarith, by linarith, by linarith⟩

theorem ball_along (t : ℝ) : ball.evalScalar (through.o + t • through.d) = some ((Ioo (2 : ℝ) 4).indicator (fun _ => 2) t) := by
  have e : V3.dot (0 - (through.o + t • through.d)) (0 - (through.o + t • through.d)) = (t - 3) ^ 2 := by
    simp only [through, V3.dot, V3.sub_x, V3.sub_y, V3.sub_z, V3.add_x, V3.add_y, V3.add_z, V3.smul_x, V3.smul_y, V3.smul_z, V3.zero_x, V3.zero_y, V3.zero_z]
    ring
  simp only [ball, Option.map_some, e, Real.sqrt_sq_eq_abs, Option.some.injEq]
  by_cases h : t ∈ Ioo (2 : ℝ) 4
  · rw [indicator_of_mem h, if_pos (by rw [abs_lt]; constructor <;> linarith [h.1, h.2]), mul_one]
  · rw [indicator_of_notMem h, if_neg (by rw [abs_lt]; rintro ⟨h1, h2⟩; exact h ⟨by linarith, by linarith⟩), mul_zero]

/-- Non-vacuity, with a number: seen through the centre of a ball of radius 1 and density 2, ratio tracking estimates the transmittance exp(-4). -/
theorem C84_example_ball : Expects (heterogeneousTransmittance ball through 0 10) (fun T => ENNReal.ofReal T.x) (ENNReal.ofReal (Real.exp (-4))) := by
  obtain ⟨hd, _⟩ := C84_library ball (.sphere none 2 0 1 ball (by norm_num) ball_made)
  have hm : Measurable ((Ioo (2 : ℝ) 4).indicator fun _ => (2 : ℝ)) := measurable_const.indicator measurableSet_Ioo
  have h := (C84_ratio_partial ball through 0 10 (by simp [NoGraze, ball, sphereBound, through, V3.all, Eps]; norm_num) hd (by simp [ball]) _ hm ball_along 0).1
  have e : transmittance ball.bound ((Ioo (2 : ℝ) 4).indicator fun _ => 2) through.o through.d 0 10 = Real.exp (-4) := by
    have hs : Icc (3 - (1.73205080757 + Eps)) (3 + (1.73205080757 + Eps)) ∩ Ioo (2 : ℝ) 4 = Ioo 2 4 := by
      refine inter_eq_right.mpr fun t ht => ⟨?_, ?_⟩
      · have := ht.1; norm_num [Eps]; linarith
      · have := ht.2; norm_num [Eps]; linarith
    rw [transmittance, through_inside, setIntegral_indicator measurableSet_Ioo, hs, setIntegral_const]
    simp; norm_num
  rw [e] at h
  exact h

end LM.Tracking
