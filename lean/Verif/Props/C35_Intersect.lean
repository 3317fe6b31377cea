import Verif.Model.Bvh
import Verif.Model.Math
import Verif.Props.C36_BvhBuild
import Mathlib.Tactic.FieldSimp
import Mathlib.Tactic.LinearCombination
import Mathlib.Tactic.Positivity
namespace LM.Bvh
open LM LM.Bound

/-! ### Triangle test -/

/-- Specification: the ray's point at t is the point of the triangle with barycentric coordinates (u, v). -/
def HitAt (p1 p2 p3 : V3 ℚ) (r : Ray) (t u v : ℚ) : Prop :=
  0 ≤ u ∧ 0 ≤ v ∧ u + v ≤ 1 ∧ r.o + t • r.d = (1 - u - v) • p1 + u • p2 + v • p3

/-- Determinant of the linear system: zero exactly for rays parallel to the triangle (or degenerate triangles). -/
def det (p1 p2 p3 : V3 ℚ) (r : Ray) : ℚ := V3.dot (p2 - p1) (V3.cross r.d (p3 - p1))

theorem sgn_mul_div (x d : ℚ) (hd : d ≠ 0) : x * sgn d / |d| = x / d := by
  unfold sgn
  split
  · next h => rw [abs_of_neg h]; field_simp
  · next h => rw [abs_of_nonneg (not_lt.mp h), mul_one]

/-- C35. Soundness: a reported hit is a point of the triangle on the ray, within the interval, with exactly the reported barycentric coordinates; interpolating the
    vertices with them gives the ray's point. -/
theorem C35_sound (p1 p2 p3 : V3 ℚ) (r : Ray) (tl th : ℚ) (h : Hit) (hit : (Tri.mk' p1 p2 p3).intersect r tl th = some h) :
    HitAt p1 p2 p3 r h.t h.u h.v ∧ tl ≤ h.t ∧ h.t ≤ th ∧ MathF.mixBarycentric p1 p2 p3 h.u h.v = r.o + h.t • r.d := by
  unfold Tri.intersect Tri.mk' at hit
  simp only at hit
  split at hit
  · cases hit
  · next hc =>
    split at hit
    · cases hit
    · next ht =>
      obtain rfl := (Option.some.inj hit).symm
      simp only [not_or, not_lt] at hc ht
      obtain ⟨hd, hu, hv, huv⟩ := hc
      obtain ⟨D, hD⟩ : ∃ D, D = V3.dot (p2 - p1) (V3.cross r.d (p3 - p1)) := ⟨_, rfl⟩
      rw [← hD] at hd hu hv huv ht ⊢
      have hadpos : 0 < |D| := lt_of_lt_of_le (by norm_num) hd
      have hd0 : D ≠ 0 := abs_pos.mp hadpos
      have hpt : r.o + (V3.dot (p3 - p1) (V3.cross (r.o - p1) (p2 - p1)) / D) • r.d =
          (1 - V3.dot (r.o - p1) (V3.cross r.d (p3 - p1)) / D - V3.dot r.d (V3.cross (r.o - p1) (p2 - p1)) / D) • p1 +
          (V3.dot (r.o - p1) (V3.cross r.d (p3 - p1)) / D) • p2 + (V3.dot r.d (V3.cross (r.o - p1) (p2 - p1)) / D) • p3 := by
        ext <;> simp only [V3.add_x, V3.add_y, V3.add_z, V3.smul_x, V3.smul_y, V3.smul_z] <;> field_simp <;> rw [hD] <;> simp [V3.dot, V3.cross] <;> ring
      refine ⟨⟨div_nonneg hu hadpos.le, div_nonneg hv hadpos.le, ?_, ?_⟩, ht.1, ht.2, ?_⟩
      · rw [← add_div, div_le_one hadpos]; exact huv
      · simp only [sgn_mul_div _ _ hd0]; exact hpt
      · simp only [sgn_mul_div _ _ hd0]; exact hpt.symm

/-- C35 (partial). Completeness: every point of the triangle on the ray within the interval is reported, with its coordinates, provided the determinant is at least 1e-8 in
    absolute value. Missing: non-parallel rays with a smaller determinant (next theorem). -/
theorem C35_complete_partial (p1 p2 p3 : V3 ℚ) (r : Ray) (tl th t u v : ℚ) (hd : 1 / 10 ^ 8 ≤ |det p1 p2 p3 r|) (hh : HitAt p1 p2 p3 r t u v) (h1 : tl ≤ t) (h2 : t ≤ th) :
    (Tri.mk' p1 p2 p3).intersect r tl th = some ⟨t, u, v⟩ := by
  obtain ⟨hu, hv, huv, he⟩ := hh
  have ho : r.o = (1 - u - v) • p1 + u • p2 + v • p3 - t • r.d := by rw [← he]; simp
  have hadpos : 0 < |det p1 p2 p3 r| := lt_of_lt_of_le (by norm_num) hd
  have hd0 : det p1 p2 p3 r ≠ 0 := abs_pos.mp hadpos
  have eu : V3.dot (r.o - p1) (V3.cross r.d (p3 - p1)) = u * det p1 p2 p3 r := by rw [ho]; simp [V3.dot, V3.cross, det]; ring
  have ev : V3.dot r.d (V3.cross (r.o - p1) (p2 - p1)) = v * det p1 p2 p3 r := by rw [ho]; simp [V3.dot, V3.cross, det]; ring
  have et : V3.dot (p3 - p1) (V3.cross (r.o - p1) (p2 - p1)) = t * det p1 p2 p3 r := by rw [ho]; simp [V3.dot, V3.cross, det]; ring
  have es : det p1 p2 p3 r * sgn (det p1 p2 p3 r) = |det p1 p2 p3 r| := by
    unfold sgn; split
    · next h => rw [abs_of_neg h]; ring
    · next h => rw [abs_of_nonneg (not_lt.mp h)]; ring
  unfold Tri.intersect Tri.mk'
  have hdet : V3.dot (p2 - p1) (V3.cross r.d (p3 - p1)) = det p1 p2 p3 r := rfl
  simp only [hdet, eu, ev, et, mul_assoc, es]
  rw [if_neg, if_neg]
  · rw [mul_div_cancel_right₀ _ hd0, mul_div_cancel_right₀ _ (ne_of_gt hadpos), mul_div_cancel_right₀ _ (ne_of_gt hadpos)]
  · rw [mul_div_cancel_right₀ _ hd0]
    simp only [not_or, not_lt]
    exact ⟨h1, h2⟩
  · simp only [not_or, not_lt]
    refine ⟨hd, by positivity, by positivity, ?_⟩
    rw [← add_mul]
    exact mul_le_of_le_one_left hadpos.le huv

/-- C35, negation. The determinant threshold is absolute: for every ray and triangle with determinant below 1e-8 in absolute value nothing is ever reported ... -/
theorem C35_negation_threshold (p1 p2 p3 : V3 ℚ) (r : Ray) (tl th : ℚ) (hd : |det p1 p2 p3 r| < 1 / 10 ^ 8) : (Tri.mk' p1 p2 p3).intersect r tl th = none := by
  unfold Tri.intersect Tri.mk'
  have hdet : V3.dot (p2 - p1) (V3.cross r.d (p3 - p1)) = det p1 p2 p3 r := rfl
  simp only [hdet]
  rw [if_pos (.inl hd)]

/-- ... although a ray perpendicular to a right triangle of side 1e-5 hits it. -/
theorem C35_negation_small : ∃ p1 p2 p3 r, det p1 p2 p3 r ≠ 0 ∧ HitAt p1 p2 p3 r 1 (1/4) (1/4) ∧ (Tri.mk' p1 p2 p3).intersect r 0 2 = none := by
  refine ⟨⟨0, 0, 0⟩, ⟨1/10^5, 0, 0⟩, ⟨0, 1/10^5, 0⟩, ⟨⟨1/(4*10^5), 1/(4*10^5), 1⟩, ⟨0, 0, -1⟩, (false, false, false)⟩, ?_, ?_, ?_⟩
  · norm_num [det, V3.dot, V3.cross]
  · refine ⟨by norm_num, by norm_num, by norm_num, ?_⟩
    ext <;> norm_num
  · apply C35_negation_threshold
    norm_num [det, V3.dot, V3.cross, abs_of_neg, abs_of_pos]

example : 1 / 10 ^ 8 ≤ |det ⟨0, 0, 0⟩ ⟨1, 0, 0⟩ ⟨0, 1, 0⟩ ⟨⟨1/4, 1/4, 1⟩, ⟨0, 0, -1⟩, (false, false, false)⟩| ∧
    HitAt ⟨0, 0, 0⟩ ⟨1, 0, 0⟩ ⟨0, 1, 0⟩ ⟨⟨1/4, 1/4, 1⟩, ⟨0, 0, -1⟩, (false, false, false)⟩ 1 (1/4) (1/4) := by
  refine ⟨by norm_num [det, V3.dot, V3.cross], by norm_num, by norm_num, by norm_num, ?_⟩
  ext <;> norm_num

/-! ### Traversal -/

/-- Specification: `res` is the closest of the hits of the triangles L within [tmin, tmax], found by testing them all. -/
def IsClosest (trs : ℕ → Tri) (L : List ℕ) (r : Ray) (tmin tmax : ℚ) : Option (Hit × ℕ) → Prop
  | none => ∀ k ∈ L, (trs k).intersect r tmin tmax = none
  | some (h, k) => k ∈ L ∧ (trs k).intersect r tmin tmax = some h ∧ ∀ k' ∈ L, ∀ h', (trs k').intersect r tmin tmax = some h' → h.t ≤ h'.t

/-- Stack slots used while node i is on top: the left child waits below the right one. -/
inductive Need (nodes : ℕ → Node) : ℕ → ℕ → Prop
  | leaf (i : ℕ) (h : (nodes i).leaf = true) : Need nodes i 1
  | inner (i a b : ℕ) (h : (nodes i).leaf = false) (h1 : Need nodes (nodes i).c1 a) (h2 : Need nodes (nodes i).c2 b) : Need nodes i (max a (b + 1))

/-- Narrowing the interval only filters hits by their distance. -/
theorem intersect_narrow (T : Tri) (r : Ray) (tmin t1 t2 : ℚ) (h : Hit) : t1 ≤ t2 → (T.intersect r tmin t1 = some h ↔ T.intersect r tmin t2 = some h ∧ h.t ≤ t1) := by
  intro h12
  unfold Tri.intersect
  simp only
  split
  · simp
  · constructor
    · intro hs
      split at hs
      · cases hs
      · next hn =>
        simp only [not_or, not_lt] at hn
        have he := Option.some.inj hs
        rw [if_neg (by simp only [not_or, not_lt]; exact ⟨hn.1, le_trans hn.2 h12⟩)]
        exact ⟨hs, by rw [← he]; exact hn.2⟩
    · rintro ⟨hs, hle⟩
      split at hs
      · cases hs
      · next hn =>
        simp only [not_or, not_lt] at hn
        have he := Option.some.inj hs
        rw [← he] at hle
        rw [if_neg (by simp only [not_or, not_lt]; exact ⟨hn.1, hle⟩)]
        exact hs

theorem mk'_contains (p1 p2 p3 : V3 ℚ) : In p1 (Tri.mk' p1 p2 p3).b ∧ In p2 (Tri.mk' p1 p2 p3).b ∧ In p3 (Tri.mk' p1 p2 p3).b := by
  have hm := fun b p => C30_merge_contains (K := ℚ) b b p
  refine ⟨?_, ?_, ?_⟩
  · exact (hm _ p3).2.2 _ ((hm _ p2).2.2 _ (hm _ p1).2.1)
  · exact (hm _ p3).2.2 _ (hm _ p2).2.1
  · exact (hm _ p3).2.1

/-- Boxes are convex. -/
theorem In_convex (b : Box ℚ) (p1 p2 p3 : V3 ℚ) (u v : ℚ) (hu : 0 ≤ u) (hv : 0 ≤ v) (huv : u + v ≤ 1) (h1 : In p1 b) (h2 : In p2 b) (h3 : In p3 b) :
    In ((1 - u - v) • p1 + u • p2 + v • p3) b := by
  have key : ∀ lo hi x y z : ℚ, lo ≤ x ∧ x ≤ hi → lo ≤ y ∧ y ≤ hi → lo ≤ z ∧ z ≤ hi → lo ≤ (1 - u - v) * x + u * y + v * z ∧ (1 - u - v) * x + u * y + v * z ≤ hi := by
    intro lo hi x y z hx hy hz
    have hw : 0 ≤ 1 - u - v := by linarith
    constructor
    · have a := mul_le_mul_of_nonneg_left hx.1 hw
      have b := mul_le_mul_of_nonneg_left hy.1 hu
      have c := mul_le_mul_of_nonneg_left hz.1 hv
      linarith
    · have a := mul_le_mul_of_nonneg_left hx.2 hw
      have b := mul_le_mul_of_nonneg_left hy.2 hu
      have c := mul_le_mul_of_nonneg_left hz.2 hv
      linarith
  exact ⟨key _ _ _ _ _ h1.1 h2.1 h3.1, key _ _ _ _ _ h1.2.1 h2.2.1 h3.2.1, key _ _ _ _ _ h1.2.2 h2.2.2 h3.2.2⟩

/-- A hit triangle's box, hence every box containing it, passes the ray/box test on the same interval. -/
theorem hit_isect (p1 p2 p3 : V3 ℚ) (b : Box ℚ) (r : Ray) (tmin tmax : ℚ) (h : Hit) (hc : ∀ p, In p (Tri.mk' p1 p2 p3).b → In p b)
    (hit : (Tri.mk' p1 p2 p3).intersect r tmin tmax = some h) : isect b r (.fin tmin) (.fin tmax) = true := by
  obtain ⟨⟨hu, hv, huv, he⟩, h1, h2, _⟩ := C35_sound p1 p2 p3 r tmin tmax h hit
  obtain ⟨c1, c2, c3⟩ := mk'_contains p1 p2 p3
  refine C31_conservative b r tmin tmax h.t h1 h2 ?_
  unfold Hits
  rw [he]
  exact hc _ (In_convex _ _ _ _ _ _ hu hv huv c1 c2 c3)

/-- The accumulator describes the closest hit of the processed triangles D. -/
def Acc (trs : ℕ → Tri) (idx : ℕ → ℕ) (r : Ray) (tmin tmax0 : ℚ) (best : Option (Hit × ℕ)) (tmax : ℚ) (D : List ℕ) : Prop :=
  match best with
  | none => tmax = tmax0 ∧ ∀ k ∈ D, (trs k).intersect r tmin tmax0 = none
  | some (h, i) => tmax = h.t ∧ h.t ≤ tmax0 ∧ idx i ∈ D ∧ (trs (idx i)).intersect r tmin tmax0 = some h ∧
      ∀ k ∈ D, ∀ h', (trs k).intersect r tmin tmax0 = some h' → h.t ≤ h'.t

theorem Acc_le {trs idx r tmin tmax0 best tmax D} (h : Acc trs idx r tmin tmax0 best tmax D) : tmax ≤ tmax0 := by
  unfold Acc at h
  split at h
  · exact h.1.le
  · rw [h.1]; exact h.2.1

/-- Triangles without a hit in the current interval do not change the answer. -/
theorem Acc_skip {trs idx r tmin tmax0 best tmax D} (E : List ℕ) (h : Acc trs idx r tmin tmax0 best tmax D) (hno : ∀ k ∈ E, (trs k).intersect r tmin tmax = none) :
    Acc trs idx r tmin tmax0 best tmax (D ++ E) := by
  have hle := Acc_le h
  have far : ∀ k ∈ E, ∀ h', (trs k).intersect r tmin tmax0 = some h' → tmax < h'.t := by
    intro k hk h' hh
    by_contra hc
    have := (intersect_narrow (trs k) r tmin tmax tmax0 h' hle).mpr ⟨hh, not_lt.mp hc⟩
    rw [hno k hk] at this
    cases this
  unfold Acc at h ⊢
  split at h
  · refine ⟨h.1, fun k hk => ?_⟩
    rcases List.mem_append.mp hk with hk | hk
    · exact h.2 k hk
    · rw [← h.1]; exact hno k hk
  · next hh i =>
    refine ⟨h.1, h.2.1, List.mem_append_left _ h.2.2.1, h.2.2.2.1, fun k hk h' hh' => ?_⟩
    rcases List.mem_append.mp hk with hk | hk
    · exact h.2.2.2.2 k hk h' hh'
    · have := far k hk h' hh'
      rw [h.1] at this
      exact this.le

theorem leafLoop_spec {trs idx r tmin tmax0} (is : List ℕ) (st : TSt) (D : List ℕ) (h : Acc trs idx r tmin tmax0 st.best st.tmax D) :
    (leafLoop trs idx r tmin st is).stack = st.stack ∧
    Acc trs idx r tmin tmax0 (leafLoop trs idx r tmin st is).best (leafLoop trs idx r tmin st is).tmax (D ++ is.map idx) := by
  induction is generalizing st D with
  | nil => refine ⟨rfl, ?_⟩; rw [List.map_nil, List.append_nil]; exact h
  | cons i is ih =>
    simp only [leafLoop, List.foldl_cons, List.map_cons]
    have hap : D ++ idx i :: is.map idx = (D ++ [idx i]) ++ is.map idx := by simp
    rw [hap]
    cases hit : (trs (idx i)).intersect r tmin st.tmax with
    | none =>
      have := Acc_skip [idx i] h (by intro k hk; rw [List.mem_singleton.mp hk]; exact hit)
      exact ih st _ this
    | some hh =>
      have hle := Acc_le h
      obtain ⟨h0, ht⟩ := (intersect_narrow (trs (idx i)) r tmin st.tmax tmax0 hh hle).mp hit
      have hacc : Acc trs idx r tmin tmax0 (some (hh, i)) hh.t (D ++ [idx i]) := by
        refine ⟨rfl, le_trans ht hle, by simp, h0, fun k hk h' hh' => ?_⟩
        rcases List.mem_append.mp hk with hk | hk
        · unfold Acc at h
          split at h
          · rw [h.2 k hk] at hh'; cases hh'
          · exact le_trans (by rw [← h.1]; exact ht) (h.2.2.2.2 k hk h' hh')
        · rw [List.mem_singleton.mp hk, h0] at hh'
          rw [Option.some.inj hh']
      exact ih { st with best := some (hh, i), tmax := hh.t } _ hacc

/-- Reflexive-transitive closure of the loop iteration. -/
inductive Steps (nodes : ℕ → Node) (trs : ℕ → Tri) (idx : ℕ → ℕ) (r : Ray) (tmin : ℚ) : TSt → TSt → Prop
  | refl (s) : Steps nodes trs idx r tmin s s
  | cons (s t u) (h : tstep nodes trs idx r tmin s = .next t) (hs : Steps nodes trs idx r tmin t u) : Steps nodes trs idx r tmin s u

theorem Steps.trans {nodes trs idx r tmin s t u} (h1 : Steps nodes trs idx r tmin s t) (h2 : Steps nodes trs idx r tmin t u) : Steps nodes trs idx r tmin s u := by
  induction h1 with
  | refl => exact h2
  | cons s t _ h _ ih => exact .cons s t u h (ih h2)

/-- Triangles as the builder makes them. -/
def Made (trs : ℕ → Tri) : Prop := ∀ k, ∃ p1 p2 p3, trs k = Tri.mk' p1 p2 p3

theorem visit {nodes trs idx} (hm : Made trs) {i : ℕ} {L : List ℕ} (hh : Holds nodes idx trs i L) (r : Ray) (tmin tmax0 : ℚ) :
    ∀ (w : ℕ) (rest : List ℕ) (best : Option (Hit × ℕ)) (tmax : ℚ) (D : List ℕ), Need nodes i w → rest.length + w ≤ cap → Acc trs idx r tmin tmax0 best tmax D →
      ∃ best' tmax' D', Steps nodes trs idx r tmin ⟨i :: rest, best, tmax⟩ ⟨rest, best', tmax'⟩ ∧ Acc trs idx r tmin tmax0 best' tmax' D' ∧ D'.Perm (D ++ L) := by
  -- a missed box
  have miss : ∀ (i : ℕ) (L : List ℕ), (∀ k ∈ L, Cov trs (nodes i).b k) → ∀ rest best tmax D, Acc trs idx r tmin tmax0 best tmax D →
      isect (nodes i).b r (.fin tmin) (.fin tmax) = false →
      ∃ best' tmax' D', Steps nodes trs idx r tmin ⟨i :: rest, best, tmax⟩ ⟨rest, best', tmax'⟩ ∧ Acc trs idx r tmin tmax0 best' tmax' D' ∧ D'.Perm (D ++ L) := by
    intro i L hc rest best tmax D ha hf
    refine ⟨best, tmax, D ++ L, .cons _ ⟨rest, best, tmax⟩ _ (by simp [tstep, hf]) (.refl _), ?_, List.Perm.refl _⟩
    apply Acc_skip L ha
    intro k hk
    cases hit : (trs k).intersect r tmin tmax with
    | none => rfl
    | some h =>
      obtain ⟨p1, p2, p3, he⟩ := hm k
      have hcov := hc k hk
      unfold Cov at hcov
      rw [he] at hit hcov
      rw [hit_isect p1 p2 p3 _ r tmin tmax h hcov hit] at hf
      cases hf
  induction hh with
  | leaf i hl _ hc =>
    intro w rest best tmax D _ _ ha
    cases hf : isect (nodes i).b r (.fin tmin) (.fin tmax) with
    | false => exact miss i _ hc rest best tmax D ha hf
    | true =>
      obtain ⟨e1, e2⟩ := leafLoop_spec (List.range' (nodes i).s ((nodes i).e - (nodes i).s)) ⟨rest, best, tmax⟩ D ha
      refine ⟨_, _, _, .cons _ (leafLoop trs idx r tmin ⟨rest, best, tmax⟩ (List.range' (nodes i).s ((nodes i).e - (nodes i).s))) _ (by simp [tstep, hf, hl]) ?_, e2, List.Perm.refl _⟩
      have : leafLoop trs idx r tmin ⟨rest, best, tmax⟩ (List.range' (nodes i).s ((nodes i).e - (nodes i).s)) =
          ⟨rest, (leafLoop trs idx r tmin ⟨rest, best, tmax⟩ (List.range' (nodes i).s ((nodes i).e - (nodes i).s))).best,
            (leafLoop trs idx r tmin ⟨rest, best, tmax⟩ (List.range' (nodes i).s ((nodes i).e - (nodes i).s))).tmax⟩ := by
        generalize leafLoop trs idx r tmin ⟨rest, best, tmax⟩ (List.range' (nodes i).s ((nodes i).e - (nodes i).s)) = x at e1
        cases x; simp only at e1; rw [e1]
      rw [← this]
      exact .refl _
  | inner i L1 L2 hl h1 h2 hc ih1 ih2 =>
    intro w rest best tmax D hw hcap ha
    cases hf : isect (nodes i).b r (.fin tmin) (.fin tmax) with
    | false => exact miss i _ hc rest best tmax D ha hf
    | true =>
      cases hw with
      | leaf _ h => rw [hl] at h; cases h
      | inner _ a b _ n1 n2 =>
        have hb : 1 ≤ b := by cases n2 <;> omega
        obtain ⟨b2, t2, D2, s2, a2, p2⟩ := ih2 b ((nodes i).c1 :: rest) best tmax D n2 (by simp only [List.length_cons]; omega) ha
        obtain ⟨b1, t1, D1, s1, a1, p1⟩ := ih1 a rest b2 t2 D2 n1 (by omega) a2
        refine ⟨b1, t1, D1, .cons _ ⟨(nodes i).c2 :: (nodes i).c1 :: rest, best, tmax⟩ _ ?_ (s2.trans s1), a1, ?_⟩
        · have : rest.length + 2 ≤ cap := by omega
          simp [tstep, hf, hl, this]
        · refine p1.trans ((p2.append_right L1).trans ?_)
          rw [List.append_assoc]
          exact List.perm_append_comm.append_left D

theorem trun_of_steps {nodes trs idx r tmin s t} (h : Steps nodes trs idx r tmin s t) (hf : ∃ o, tstep nodes trs idx r tmin t = .finished o ∧ o = t) :
    ∃ fuel, trun nodes trs idx r tmin fuel s = some (.finished t) := by
  induction h with
  | refl s =>
    obtain ⟨o, h1, rfl⟩ := hf
    exact ⟨1, by simp [trun, h1]⟩
  | cons s t u h _ ih =>
    obtain ⟨fuel, hfuel⟩ := ih hf
    exact ⟨fuel + 1, by simp [trun, h, hfuel]⟩

/-- The answer does not depend on how long one waits: more fuel gives the same outcome. -/
theorem trun_mono {nodes trs idx r tmin} (a b : ℕ) (hab : a ≤ b) (s : TSt) (o : TOut) (h : trun nodes trs idx r tmin a s = some o) : trun nodes trs idx r tmin b s = some o := by
  induction a generalizing b s with
  | zero => simp [trun] at h
  | succ a ih =>
    obtain ⟨b, rfl⟩ : ∃ b', b = b' + 1 := ⟨b - 1, by omega⟩
    simp only [trun] at h ⊢
    cases hs : tstep nodes trs idx r tmin s with
    | next t => rw [hs] at h; simp only at h ⊢; exact ih b (by omega) t h
    | finished t => rw [hs] at h; simpa using h
    | overflow => rw [hs] at h; simpa using h

/-- C37 (partial). On every valid BVH over well-formed triangles whose traversal needs at most the 99 stack slots, traversal ends, and its answer is the closest hit: the same as
    testing all triangles one by one. Missing: deeper trees, where the stack overflows (C38). -/
theorem C37_closest_partial (nodes : ℕ → Node) (idx : ℕ → ℕ) (trs : ℕ → Tri) (hm : Made trs) (L : List ℕ) (hh : Holds nodes idx trs 0 L) (w : ℕ) (hw : Need nodes 0 w) (hcap : w ≤ cap)
    (r : Ray) (tmin tmax : ℚ) :
    ∃ fuel st, trun nodes trs idx r tmin fuel (TSt.init tmax) = some (.finished st) ∧ IsClosest trs L r tmin tmax (st.best.map (fun p => (p.1, idx p.2))) ∧
      (∀ h i, st.best = some (h, i) → st.tmax = h.t) := by
  have ha : Acc trs idx r tmin tmax none tmax [] := ⟨rfl, fun k hk => absurd hk (by simp)⟩
  obtain ⟨best', tmax', D', hs, hacc, hp⟩ := visit hm hh r tmin tmax w [] none tmax [] hw (by simpa using hcap) ha
  obtain ⟨fuel, hf⟩ := trun_of_steps hs ⟨_, rfl, rfl⟩
  refine ⟨fuel, _, hf, ?_, ?_⟩
  · simp only [List.nil_append] at hp
    unfold Acc at hacc
    split at hacc
    · exact fun k hk => hacc.2 k (hp.mem_iff.mpr hk)
    · exact ⟨hp.mem_iff.mp hacc.2.2.1, hacc.2.2.2.1, fun k hk h' hh' => hacc.2.2.2.2 k (hp.mem_iff.mpr hk) h' hh'⟩
  · intro h i hb
    simp only at hb
    subst hb
    exact hacc.1

/-- Every valid BVH needs some number of stack slots, at most its number of triangles. -/
theorem need_exists {nodes idx trs i L} (hh : Holds nodes idx trs i L) : ∃ w, Need nodes i w ∧ w ≤ L.length := by
  induction hh with
  | leaf i hl hne _ => exact ⟨1, .leaf i hl, by rw [seg_length]; omega⟩
  | inner i L1 L2 hl h1 h2 _ ih1 ih2 =>
    obtain ⟨a, na, la⟩ := ih1
    obtain ⟨b, nb, lb⟩ := ih2
    refine ⟨max a (b + 1), .inner i a b hl na nb, ?_⟩
    have : 1 ≤ a := by cases na <;> omega
    have : 1 ≤ L1.length := by omega
    rw [List.length_append]
    omega

/-- C38 (partial). The traversal stack is never exceeded on a BVH with at most 99 triangles, or more generally one needing at most 99 slots (`C37_closest_partial`).
    Missing: larger trees (next theorem). -/
theorem C38_small_partial (nodes : ℕ → Node) (idx : ℕ → ℕ) (trs : ℕ → Tri) (hm : Made trs) (L : List ℕ) (hh : Holds nodes idx trs 0 L)
    (hlen : L.length ≤ 99) (r : Ray) (tmin tmax : ℚ) (fuel : ℕ) :
    trun nodes trs idx r tmin fuel (TSt.init tmax) ≠ some .overflow := by
  obtain ⟨w, hw, hwl⟩ := need_exists hh
  obtain ⟨f, st, hf, _⟩ := C37_closest_partial nodes idx trs hm L hh w hw (by unfold cap; omega) r tmin tmax
  intro hc
  rcases Nat.le_total f fuel with h | h
  · have := trun_mono _ _ h _ _ hf
    rw [this] at hc; cases hc
  · have := trun_mono _ _ h _ _ hc
    rw [this] at hf; cases hf

/-- Building and querying together (partial, as above): for at most 99 triangles, whatever the interleaving of the builder threads, every ray query against the result of a completed
    construction ends and returns the closest of the hits of all n triangles. Missing: more triangles, for which the traversal stack may overflow (C38_negation_built). -/
theorem C37_build_query_partial (trs : ℕ → Tri) (hm : Made trs) (n k : ℕ) (hn : 1 ≤ n) (hlen : n ≤ 99) (s : St) (hr : Reach trs n k s) (hne : s.ths ≠ [])
    (hex : ∀ t ∈ s.ths, t = Stage.exited) (r : Ray) (tmin tmax : ℚ) :
    ∃ fuel st, trun s.nodes trs s.idx r tmin fuel (TSt.init tmax) = some (.finished st) ∧ IsClosest trs (List.range n) r tmin tmax (st.best.map (fun p => (p.1, s.idx p.2))) := by
  obtain ⟨L, hh, hp⟩ := C36_built trs n k hn s hr hne hex
  obtain ⟨w, hw, hwl⟩ := need_exists hh
  have hl : L.length = n := by rw [hp.length_eq, List.length_range]
  obtain ⟨f, st, hf, hc, _⟩ := C37_closest_partial s.nodes s.idx trs hm L hh w hw (by unfold cap; omega) r tmin tmax
  refine ⟨f, st, hf, ?_⟩
  unfold IsClosest at hc ⊢
  split at hc
  · exact fun k hk => hc k (hp.mem_iff.mpr hk)
  · exact ⟨hp.mem_iff.mp hc.1, hc.2.1, fun k hk h' hh' => hc.2.2 k (hp.mem_iff.mpr hk) h' hh'⟩

/-! A right-deep chain over n + 1 copies of one triangle: inner node 2j has the leaf 2j+1 and the inner node 2j+2 as children. -/

def chainTri : Tri := Tri.mk' ⟨0, 0, 0⟩ ⟨1, 0, 0⟩ ⟨0, 1, 0⟩
def chainNode (n i : ℕ) : Node :=
  if i = 2 * n then ⟨chainTri.b, true, n, n + 1, 0, 0⟩
  else if i % 2 = 0 then ⟨chainTri.b, false, 0, 0, i + 1, i + 2⟩
  else ⟨chainTri.b, true, i / 2, i / 2 + 1, 0, 0⟩
def chainRay : Ray := ⟨⟨1/4, 1/4, 1⟩, ⟨0, 0, -1⟩, (false, false, false)⟩

theorem chain_holds (n : ℕ) : ∀ j, j ≤ n → Holds (chainNode n) (fun i => i) (fun _ => chainTri) (2 * j) (List.range' j (n + 1 - j)) := by
  intro j hj
  obtain ⟨d, rfl⟩ : ∃ d, n = j + d := ⟨n - j, by omega⟩
  clear hj
  induction d generalizing j with
  | zero =>
    have hl : chainNode (j + 0) (2 * j) = ⟨chainTri.b, true, j, j + 1, 0, 0⟩ := by simp [chainNode]
    have h := Holds.leaf (nodes := chainNode (j + 0)) (idx := fun i => i) (trs := fun _ => chainTri) (2 * j) (by rw [hl]) (by rw [hl]; simp) (by rw [hl]; intro k _ p hp; exact hp)
    rw [hl] at h
    simpa [seg] using h
  | succ d ih =>
    have ih' := ih (j + 1)
    have e1 : j + 1 + d = j + (d + 1) := by omega
    rw [e1] at ih'
    have hl : chainNode (j + (d + 1)) (2 * j) = ⟨chainTri.b, false, 0, 0, 2 * j + 1, 2 * j + 2⟩ := by
      unfold chainNode
      rw [if_neg (by omega), if_pos (by omega)]
    have hl1 : chainNode (j + (d + 1)) (2 * j + 1) = ⟨chainTri.b, true, j, j + 1, 0, 0⟩ := by
      unfold chainNode
      rw [if_neg (by omega), if_neg (by omega)]
      simp only [Node.mk.injEq, true_and, and_true]
      omega
    have h1 : Holds (chainNode (j + (d + 1))) (fun i => i) (fun _ => chainTri) (2 * j + 1) [j] := by
      have h := Holds.leaf (nodes := chainNode (j + (d + 1))) (idx := fun i => i) (trs := fun _ => chainTri) (2 * j + 1) (by rw [hl1]) (by rw [hl1]; simp) (by rw [hl1]; intro k _ p hp; exact hp)
      rw [hl1] at h
      simpa [seg] using h
    have h2 : Holds (chainNode (j + (d + 1))) (fun i => i) (fun _ => chainTri) (2 * (j + 1)) (List.range' (j + 1) (j + (d + 1) + 1 - (j + 1))) := ih'
    have := Holds.inner (nodes := chainNode (j + (d + 1))) (idx := fun i => i) (trs := fun _ => chainTri) (2 * j) [j] (List.range' (j + 1) (j + (d + 1) + 1 - (j + 1))) (by rw [hl]) (by rw [hl]; exact h1)
      (by rw [hl]; exact h2) (by rw [hl]; intro k _ p hp; exact hp)
    have e2 : j + (d + 1) + 1 - j = (j + (d + 1) + 1 - (j + 1)) + 1 := by omega
    rw [e2, List.range'_succ]
    exact this

theorem chain_isect (n i : ℕ) : isect (chainNode n i).b chainRay (.fin 0) (.fin 2) = true := by
  have hb : (chainNode n i).b = chainTri.b := by unfold chainNode; split; rfl; split <;> rfl
  rw [hb]
  apply C31_conservative _ _ _ _ 1 (by norm_num) (by norm_num)
  obtain ⟨c1, c2, c3⟩ := mk'_contains ⟨0, 0, 0⟩ ⟨1, 0, 0⟩ ⟨0, 1, 0⟩
  have := In_convex _ _ _ _ (1/4) (1/4) (by norm_num) (by norm_num) (by norm_num) c1 c2 c3
  unfold Hits
  have e : chainRay.o + (1 : ℚ) • chainRay.d = (1 - 1/4 - 1/4 : ℚ) • (⟨0, 0, 0⟩ : V3 ℚ) + (1/4 : ℚ) • (⟨1, 0, 0⟩ : V3 ℚ) + (1/4 : ℚ) • (⟨0, 1, 0⟩ : V3 ℚ) := by
    ext <;> norm_num [chainRay]
  rw [e]
  exact this

/-- C38, negation. For every n ≥ 99 there is a valid BVH over n + 1 (well-formed) triangles and a ray on which traversal writes beyond its stack. -/
theorem C38_negation_overflow (n : ℕ) (hn : 99 ≤ n) : Holds (chainNode n) (fun i => i) (fun _ => chainTri) 0 (List.range (n + 1)) ∧ Made (fun _ => chainTri) ∧
    ∃ fuel, trun (chainNode n) (fun _ => chainTri) (fun i => i) chainRay 0 fuel (TSt.init 2) = some .overflow := by
  refine ⟨?_, fun k => ⟨_, _, _, rfl⟩, ?_⟩
  · have := chain_holds n 0 (Nat.zero_le n)
    simpa [List.range_eq_range'] using this
  · have go : ∀ d j rest, j + d = 98 → rest.length = j → ∃ fuel, trun (chainNode n) (fun _ => chainTri) (fun i => i) chainRay 0 fuel ⟨2 * j :: rest, none, 2⟩ = some .overflow := by
      intro d
      induction d with
      | zero =>
        intro j rest hj hr
        refine ⟨1, ?_⟩
        have hl : (chainNode n (2 * j)).leaf = false := by unfold chainNode; rw [if_neg (by omega), if_pos (by omega)]
        have hov : ¬ (rest.length + 2 ≤ cap) := by unfold cap; omega
        simp only [trun, tstep, chain_isect, hl, Bool.true_eq_false, if_false, if_true, if_neg hov]
      | succ d ih =>
        intro j rest hj hr
        have hl : chainNode n (2 * j) = ⟨chainTri.b, false, 0, 0, 2 * j + 1, 2 * j + 2⟩ := by unfold chainNode; rw [if_neg (by omega), if_pos (by omega)]
        have hok : rest.length + 2 ≤ cap := by unfold cap; omega
        obtain ⟨fuel, hf⟩ := ih (j + 1) ((2 * j + 1) :: rest) (by omega) (by simp [hr])
        refine ⟨fuel + 1, ?_⟩
        have hi := chain_isect n (2 * j)
        rw [hl] at hi
        have e : 2 * (j + 1) = 2 * j + 2 := by ring
        rw [e] at hf
        simp only [trun, tstep, hl, hi, Bool.true_eq_false, if_false, if_true, if_pos hok]
        exact hf
    exact go 98 0 [] rfl rfl

/-- Non-vacuity of C37 and C38: a valid BVH over four triangles, with a ray that hits. -/
example : Holds (chainNode 3) (fun i => i) (fun _ => chainTri) 0 [0, 1, 2, 3] ∧ Made (fun _ => chainTri) ∧ chainTri.intersect chainRay 0 2 = some ⟨1, 1/4, 1/4⟩ := by
  refine ⟨chain_holds 3 0 (by omega), fun k => ⟨_, _, _, rfl⟩, ?_⟩
  apply C35_complete_partial
  · norm_num [det, V3.dot, V3.cross, chainRay]
  · refine ⟨by norm_num, by norm_num, by norm_num, ?_⟩
    ext <;> norm_num [chainRay]
  · norm_num
  · norm_num

end LM.Bvh
