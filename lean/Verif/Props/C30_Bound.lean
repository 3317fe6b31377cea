import Verif.Model.Bound
import Mathlib.Algebra.Order.Field.Basic
import Mathlib.Data.List.Perm.Basic
import Mathlib.Tactic.Linarith
import Mathlib.Tactic.NormNum
namespace LM.Bound

section Merge
variable {K : Type} [Field K] [LinearOrder K]

/-- Specification: a point lies in a box. -/
def In (p : V3 K) (b : Box K) : Prop :=
  (b.min.x ≤ p.x ∧ p.x ≤ b.max.x) ∧ (b.min.y ≤ p.y ∧ p.y ≤ b.max.y) ∧ (b.min.z ≤ p.z ∧ p.z ≤ b.max.z)
/-- A box with at least one point. -/
def NE (b : Box K) : Prop := b.min.x ≤ b.max.x ∧ b.min.y ≤ b.max.y ∧ b.min.z ≤ b.max.z

theorem gmax_eq (x y : K) : gmax x y = max x y := by
  unfold gmax; split
  · next h => exact (max_eq_right h.le).symm
  · next h => exact (max_eq_left (not_lt.mp h)).symm
theorem gmin_eq (x y : K) : gmin x y = min x y := by
  unfold gmin; split
  · next h => exact (min_eq_right h.le).symm
  · next h => exact (min_eq_left (not_lt.mp h)).symm

/-- C30. The merged box contains every point of both boxes. -/
theorem C30_merge_contains (a b : Box K) (p : V3 K) : (In p a ∨ In p b → In p (merge a b)) ∧ (In p (mergeP a p)) ∧ ∀ q, In q a → In q (mergeP a p) := by
  simp only [In, merge, mergeP, vmin, vmax, gmin_eq, gmax_eq, min_le_iff, le_max_iff]
  refine ⟨?_, ⟨⟨.inr (le_refl _), .inr (le_refl _)⟩, ⟨.inr (le_refl _), .inr (le_refl _)⟩, .inr (le_refl _), .inr (le_refl _)⟩, ?_⟩
  · rintro (⟨⟨h1, h2⟩, ⟨h3, h4⟩, h5, h6⟩ | ⟨⟨h1, h2⟩, ⟨h3, h4⟩, h5, h6⟩)
    · exact ⟨⟨.inl h1, .inl h2⟩, ⟨.inl h3, .inl h4⟩, .inl h5, .inl h6⟩
    · exact ⟨⟨.inr h1, .inr h2⟩, ⟨.inr h3, .inr h4⟩, .inr h5, .inr h6⟩
  · rintro q ⟨⟨h1, h2⟩, ⟨h3, h4⟩, h5, h6⟩
    exact ⟨⟨.inl h1, .inl h2⟩, ⟨.inl h3, .inl h4⟩, .inl h5, .inl h6⟩

/-- C30. It is the smallest one: any box containing all points of two non-empty boxes contains all points of their merge; the same for a box and a point. -/
theorem C30_merge_least (a b c : Box K) (ha : NE a) (hb : NE b) (h1 : ∀ p, In p a → In p c) (h2 : ∀ p, In p b → In p c) : ∀ p, In p (merge a b) → In p c := by
  have corner : ∀ e : Box K, NE e → (∀ p, In p e → In p c) → (c.min.x ≤ e.min.x ∧ e.max.x ≤ c.max.x) ∧ (c.min.y ≤ e.min.y ∧ e.max.y ≤ c.max.y) ∧ (c.min.z ≤ e.min.z ∧ e.max.z ≤ c.max.z) := by
    intro e ⟨hx, hy, hz⟩ h
    have k1 := h e.min ⟨⟨le_refl _, hx⟩, ⟨le_refl _, hy⟩, le_refl _, hz⟩
    have k2 := h e.max ⟨⟨hx, le_refl _⟩, ⟨hy, le_refl _⟩, hz, le_refl _⟩
    exact ⟨⟨k1.1.1, k2.1.2⟩, ⟨k1.2.1.1, k2.2.1.2⟩, k1.2.2.1, k2.2.2.2⟩
  obtain ⟨⟨a1, a2⟩, ⟨a3, a4⟩, a5, a6⟩ := corner a ha h1
  obtain ⟨⟨b1, b2⟩, ⟨b3, b4⟩, b5, b6⟩ := corner b hb h2
  rintro p ⟨⟨p1, p2⟩, ⟨p3, p4⟩, p5, p6⟩
  simp only [merge, vmin, vmax, gmin_eq, gmax_eq] at p1 p2 p3 p4 p5 p6
  exact ⟨⟨le_trans (le_min a1 b1) p1, le_trans p2 (max_le a2 b2)⟩, ⟨le_trans (le_min a3 b3) p3, le_trans p4 (max_le a4 b4)⟩, le_trans (le_min a5 b5) p5, le_trans p6 (max_le a6 b6)⟩

/-- Merging a point is merging the box consisting of the point. -/
theorem mergeP_eq (a : Box K) (p : V3 K) : mergeP a p = merge a ⟨p, p⟩ := rfl

theorem C30_mergeP_least (a c : Box K) (q : V3 K) (ha : NE a) (h1 : ∀ p, In p a → In p c) (h2 : In q c) : ∀ p, In p (mergeP a q) → In p c := by
  rw [mergeP_eq]
  apply C30_merge_least a ⟨q, q⟩ c ha ⟨le_refl _, le_refl _, le_refl _⟩ h1
  rintro p ⟨⟨p1, p2⟩, ⟨p3, p4⟩, p5, p6⟩
  simp only at p1 p2 p3 p4 p5 p6
  obtain ⟨⟨q1, q2⟩, ⟨q3, q4⟩, q5, q6⟩ := h2
  exact ⟨⟨le_trans q1 p1, le_trans p2 q2⟩, ⟨le_trans q3 p3, le_trans p4 q4⟩, le_trans q5 p5, le_trans p6 q6⟩

theorem box_ext (a b : Box K) (h1 : a.min = b.min) (h2 : a.max = b.max) : a = b := by cases a; cases b; simp_all

/-- C30. Merge is associative, commutative and idempotent. -/
theorem C30_algebra (a b c : Box K) : merge (merge a b) c = merge a (merge b c) ∧ merge a b = merge b a ∧ merge a a = a := by
  refine ⟨?_, ?_, ?_⟩ <;> (apply box_ext <;> ext <;> simp [merge, vmin, vmax, gmin_eq, gmax_eq, min_assoc, max_assoc]) <;> first | exact min_comm _ _ | exact max_comm _ _

variable [IsStrictOrderedRing K]

/-- Coordinates representable below the sentinel. -/
def Small (b : Box K) : Prop :=
  (b.min.x ≤ Inf ∧ -Inf ≤ b.max.x) ∧ (b.min.y ≤ Inf ∧ -Inf ≤ b.max.y) ∧ (b.min.z ≤ Inf ∧ -Inf ≤ b.max.z)

/-- C30 (partial). The default box is the identity of merge for boxes whose lower corner is at most 1e10 and whose upper corner is at least -1e10.
    Missing: boxes beyond, where it is false (the sentinel is finite). -/
theorem C30_identity_partial (a : Box K) (h : Small a) : merge dflt a = a ∧ merge a dflt = a := by
  obtain ⟨⟨h1, h2⟩, ⟨h3, h4⟩, h5, h6⟩ := h
  constructor <;> apply box_ext <;> ext <;> simp [merge, vmin, vmax, gmin_eq, gmax_eq, dflt, *]

omit [IsStrictOrderedRing K] in
/-- C30. The default box contains no point. -/
theorem C30_default_empty [IsStrictOrderedRing K] (p : V3 K) : ¬ In p (dflt : Box K) := by
  rintro ⟨⟨h1, h2⟩, _⟩
  simp only [dflt, V3.all_x, Inf] at h1 h2
  have := le_trans h1 h2
  norm_num at this

/-- C30, negation. For every point with a coordinate beyond 1e10 the bound of that single point (merged into the default box) also contains another point, so it
    is not the smallest box. -/
theorem C30_negation_far (p : V3 K) (h : Inf < p.x) : ∃ q, q ≠ p ∧ In q (mergeP dflt p) := by
  have hI : (0 : K) < Inf := by unfold Inf; positivity
  refine ⟨⟨Inf, p.y, p.z⟩, fun he => ?_, ?_⟩
  · have : (Inf : K) = p.x := congrArg V3.x he
    rw [this] at h; exact lt_irrefl _ h
  · simp only [In, mergeP, vmin, vmax, gmin_eq, gmax_eq, dflt, V3.all_x, V3.all_y, V3.all_z, min_le_iff, le_max_iff]
    exact ⟨⟨.inl (le_refl _), .inr h.le⟩, ⟨.inr (le_refl _), .inr (le_refl _)⟩, .inr (le_refl _), .inr (le_refl _)⟩

/-- The bound of a sequence of points, as accumulated by the callers: starting from the default box. -/
def boundOf (ps : List (V3 K)) : Box K := ps.foldl mergeP dflt

omit [IsStrictOrderedRing K] in
theorem foldl_contains (ps : List (V3 K)) (b : Box K) (p : V3 K) (h : p ∈ ps ∨ In p b) : In p (ps.foldl mergeP b) := by
  induction ps generalizing b with
  | nil => rcases h with h | h; exacts [absurd h (by simp), h]
  | cons q ps ih =>
    apply ih
    rcases h with h | h
    · rcases List.mem_cons.mp h with rfl | h
      · exact .inr (C30_merge_contains b b p).2.1
      · exact .inl h
    · exact .inr ((C30_merge_contains b b q).2.2 p h)

omit [IsStrictOrderedRing K] in
/-- C30. The bound of any sequence of points contains each of them, and does not depend on the order. -/
theorem C30_sequence (ps ps' : List (V3 K)) (hp : ps.Perm ps') : (∀ p ∈ ps, In p (boundOf ps)) ∧ boundOf ps = boundOf ps' := by
  refine ⟨fun p h => foldl_contains ps _ p (.inl h), ?_⟩
  apply List.Perm.foldl_eq' hp
  intro x _ y _ z
  rw [mergeP_eq, mergeP_eq, mergeP_eq, mergeP_eq, (C30_algebra z ⟨x, x⟩ ⟨y, y⟩).1, (C30_algebra z ⟨y, y⟩ ⟨x, x⟩).1, (C30_algebra (⟨x, x⟩ : Box K) ⟨y, y⟩ ⟨y, y⟩).2.1]

/-- C30 (partial). With coordinates within ±1e10 the bound of a non-empty sequence of points is the smallest box containing them. Missing: points beyond 1e10. -/
theorem C30_sequence_least_partial (p : V3 K) (ps : List (V3 K)) (c : Box K) (hs : Small ⟨p, p⟩) (h : ∀ q ∈ p :: ps, In q c) : ∀ q, In q (boundOf (p :: ps)) → In q c := by
  have gen : ∀ (ps : List (V3 K)) (b : Box K), NE b → (∀ q, In q b → In q c) → (∀ q ∈ ps, In q c) → ∀ q, In q (ps.foldl mergeP b) → In q c := by
    intro ps
    induction ps with
    | nil => intro b _ h1 _ q hq; exact h1 q hq
    | cons r ps ih =>
      intro b hb h1 h2
      apply ih (mergeP b r)
      · obtain ⟨hx, hy, hz⟩ := hb
        simp only [NE, mergeP, vmin, vmax, gmin_eq, gmax_eq]
        exact ⟨le_trans (min_le_left _ _) (le_trans hx (le_max_left _ _)), le_trans (min_le_left _ _) (le_trans hy (le_max_left _ _)), le_trans (min_le_left _ _) (le_trans hz (le_max_left _ _))⟩
      · exact C30_mergeP_least b c r hb h1 (h2 r (by simp))
      · exact fun q hq => h2 q (by simp [hq])
  intro q hq
  have e : mergeP dflt p = ⟨p, p⟩ := by rw [mergeP_eq]; exact (C30_identity_partial ⟨p, p⟩ hs).1
  have hq' : In q (ps.foldl mergeP (mergeP dflt p)) := hq
  rw [e] at hq'
  refine gen ps ⟨p, p⟩ ⟨le_refl _, le_refl _, le_refl _⟩ ?_ (fun q hq => h q (by simp [hq])) q hq'
  rintro r ⟨⟨p1, p2⟩, ⟨p3, p4⟩, p5, p6⟩
  have : r = p := by ext <;> [exact le_antisymm p2 p1; exact le_antisymm p4 p3; exact le_antisymm p6 p5]
  rw [this]; exact h p (by simp)

/-- C30. The centre of a non-empty box lies in it, and its surface area is non-negative and grows with merging. -/
theorem C30_center_area (a b : Box K) (ha : NE a) : In (center a) a ∧ 0 ≤ surfaceArea a ∧ (NE b → surfaceArea a ≤ surfaceArea (merge a b)) := by
  obtain ⟨hx, hy, hz⟩ := ha
  refine ⟨?_, ?_, ?_⟩
  · simp only [In, center, V3.smul_x, V3.smul_y, V3.smul_z, V3.add_x, V3.add_y, V3.add_z]
    refine ⟨⟨?_, ?_⟩, ⟨?_, ?_⟩, ?_, ?_⟩ <;> linarith
  · have h1 : 0 ≤ a.max.x - a.min.x := by linarith
    have h2 : 0 ≤ a.max.y - a.min.y := by linarith
    have h3 : 0 ≤ a.max.z - a.min.z := by linarith
    simp only [surfaceArea, V3.sub_x, V3.sub_y, V3.sub_z]
    positivity
  · intro _
    simp only [surfaceArea, merge, vmin, vmax, gmin_eq, gmax_eq, V3.sub_x, V3.sub_y, V3.sub_z]
    have k : ∀ (l u l' u' : K), l ≤ u → 0 ≤ u - l ∧ u - l ≤ max u u' - min l l' := by
      intro l u l' u' h
      exact ⟨by linarith, by linarith [le_max_left u u', min_le_left l l']⟩
    obtain ⟨x1, x2⟩ := k a.min.x a.max.x b.min.x b.max.x hx
    obtain ⟨y1, y2⟩ := k a.min.y a.max.y b.min.y b.max.y hy
    obtain ⟨z1, z2⟩ := k a.min.z a.max.z b.min.z b.max.z hz
    have m1 := mul_le_mul x2 y2 y1 (le_trans x1 x2)
    have m2 := mul_le_mul y2 z2 z1 (le_trans y1 y2)
    have m3 := mul_le_mul z2 x2 x1 (le_trans z1 z2)
    linarith

end Merge

example : Small (⟨⟨1, 2, 3⟩, ⟨1, 2, 3⟩⟩ : Box ℚ) ∧ NE (⟨⟨0, 0, 0⟩, ⟨1, 2, 3⟩⟩ : Box ℚ) := by
  simp [Small, NE, Inf]; norm_num

/-! ### Ray / box -/

section RayBox
variable {K : Type} [Field K] [LinearOrder K] [IsStrictOrderedRing K]

/-- Specification: the ray's point at t lies in the box (exact arithmetic). -/
def Hits (b : Box K) (r : RayK K) (t : K) : Prop := In (r.o + t • r.d) b

/-- x is NaN or at most t / at least t. -/
def Lo (x : EFK K) (t : K) : Prop := x = .nan ∨ x = .ninf ∨ ∃ q, x = .fin q ∧ q ≤ t
def Hi (x : EFK K) (t : K) : Prop := x = .nan ∨ x = .pinf ∨ ∃ q, x = .fin q ∧ t ≤ q

theorem elt_hi_lo (x y : EFK K) (t : K) (hx : Hi x t) (hy : Lo y t) : elt x y = false := by
  rcases hx with rfl | rfl | ⟨q, rfl, hq⟩ <;> rcases hy with rfl | rfl | ⟨p, rfl, hp⟩ <;> simp [elt]
  linarith

theorem Lo_emax (x y : EFK K) (t : K) (hx : Lo x t) (hy : Lo y t) : Lo (emax x y) t := by unfold emax; split <;> assumption
theorem Hi_emin (x y : EFK K) (t : K) (hx : Hi x t) (hy : Hi y t) : Hi (emin x y) t := by unfold emin; split <;> assumption

theorem axis_conservative (mn mx o d : K) (nz : Bool) (tmin tmax : EFK K) (t : K) (h1 : mn ≤ o + t * d) (h2 : o + t * d ≤ mx) (hl : Lo tmin t) (hh : Hi tmax t) :
    ∃ a b, axis mn mx o d nz tmin tmax = some (a, b) ∧ Lo a t ∧ Hi b t := by
  have slab : Lo (if elt (recip d nz) (.fin 0) then emul (.fin (mx - o)) (recip d nz) else emul (.fin (mn - o)) (recip d nz)) t ∧
      Hi (if elt (recip d nz) (.fin 0) then emul (.fin (mn - o)) (recip d nz) else emul (.fin (mx - o)) (recip d nz)) t := by
    rcases lt_trichotomy d 0 with hd | hd | hd
    · have hne : d ≠ 0 := ne_of_lt hd
      have hv : elt (recip d nz) (.fin 0) = true := by simp [recip, hne, elt, hd]
      simp only [hv, if_true]
      simp only [recip, if_neg hne, emul]
      refine ⟨.inr (.inr ⟨_, rfl, ?_⟩), .inr (.inr ⟨_, rfl, ?_⟩)⟩
      · rw [mul_one_div, div_le_iff_of_neg hd]; linarith
      · rw [mul_one_div, le_div_iff_of_neg hd]; linarith
    · subst hd
      simp only [mul_zero, add_zero] at h1 h2
      cases nz
      · have hv : elt (recip (0:K) false) (.fin 0) = false := by simp [recip, elt]
        simp only [hv, Bool.false_eq_true, if_false]
        simp only [recip, if_true, Bool.false_eq_true, if_false, emul]
        constructor
        · split
          · exact .inl rfl
          · next hne => split
                        · exact .inr (.inl rfl)
                        · next hge => exact absurd (le_antisymm (by linarith) (not_lt.mp hge)) hne
        · split
          · exact .inl rfl
          · next hne => split
                        · next hlt => linarith
                        · exact .inr (.inl rfl)
      · have hv : elt (recip (0:K) true) (.fin 0) = true := by simp [recip, elt]
        simp only [hv, if_true]
        simp only [recip, if_true, emul]
        constructor
        · split
          · exact .inl rfl
          · next hne => split
                        · next hlt => linarith
                        · exact .inr (.inl rfl)
        · split
          · exact .inl rfl
          · next hne => split
                        · exact .inr (.inl rfl)
                        · next hge => exact absurd (le_antisymm (by linarith) (not_lt.mp hge)) hne
    · have hne : d ≠ 0 := ne_of_gt hd
      have hv : elt (recip d nz) (.fin 0) = false := by simp [recip, hne, elt, hd.le]
      simp only [hv, Bool.false_eq_true, if_false]
      simp only [recip, if_neg hne, emul]
      refine ⟨.inr (.inr ⟨_, rfl, ?_⟩), .inr (.inr ⟨_, rfl, ?_⟩)⟩
      · rw [mul_one_div, div_le_iff₀ hd]; linarith
      · rw [mul_one_div, le_div_iff₀ hd]; linarith
  have e : axis mn mx o d nz tmin tmax =
      (if elt (emin (if elt (recip d nz) (.fin 0) then emul (.fin (mn - o)) (recip d nz) else emul (.fin (mx - o)) (recip d nz)) tmax)
          (emax (if elt (recip d nz) (.fin 0) then emul (.fin (mx - o)) (recip d nz) else emul (.fin (mn - o)) (recip d nz)) tmin) then none
        else some (emax (if elt (recip d nz) (.fin 0) then emul (.fin (mx - o)) (recip d nz) else emul (.fin (mn - o)) (recip d nz)) tmin,
          emin (if elt (recip d nz) (.fin 0) then emul (.fin (mn - o)) (recip d nz) else emul (.fin (mx - o)) (recip d nz)) tmax)) := by
    unfold axis
    by_cases hv : elt (recip d nz) (.fin 0) = true <;> simp [hv]
  have k1 := Lo_emax _ tmin t slab.1 hl
  have k2 := Hi_emin _ tmax t slab.2 hh
  refine ⟨_, _, ?_, k1, k2⟩
  rw [e, elt_hi_lo _ _ t k2 k1]
  rfl

/-- C31. If the ray has a point in the box at some t in the query interval, the test answers yes — for every ray, also with zero direction components of either
    sign, where reciprocals are infinite and products may be NaN. -/
theorem C31_conservative (b : Box K) (r : RayK K) (tmin tmax t : K) (h1 : tmin ≤ t) (h2 : t ≤ tmax) (h : Hits b r t) : isect b r (.fin tmin) (.fin tmax) = true := by
  obtain ⟨⟨x1, x2⟩, ⟨y1, y2⟩, z1, z2⟩ := h
  simp only [V3.add_x, V3.add_y, V3.add_z, V3.smul_x, V3.smul_y, V3.smul_z] at x1 x2 y1 y2 z1 z2
  obtain ⟨a1, b1, e1, l1, u1⟩ := axis_conservative _ _ _ _ r.nz.1 (.fin tmin) (.fin tmax) t x1 x2 (.inr (.inr ⟨_, rfl, h1⟩)) (.inr (.inr ⟨_, rfl, h2⟩))
  obtain ⟨a2, b2, e2, l2, u2⟩ := axis_conservative _ _ _ _ r.nz.2.1 a1 b1 t y1 y2 l1 u1
  obtain ⟨a3, b3, e3, l3, u3⟩ := axis_conservative _ _ _ _ r.nz.2.2 a2 b2 t z1 z2 l2 u2
  simp [isect, isectRange, e1, e2, e3]

/-- The ray does not run inside a face plane of the box. -/
def NoGraze (b : Box K) (r : RayK K) : Prop :=
  (r.d.x = 0 → r.o.x ≠ b.min.x ∧ r.o.x ≠ b.max.x) ∧ (r.d.y = 0 → r.o.y ≠ b.min.y ∧ r.o.y ≠ b.max.y) ∧ (r.d.z = 0 → r.o.z ≠ b.min.z ∧ r.o.z ≠ b.max.z)

theorem axis_exact (mn mx o d : K) (nz : Bool) (x y : K) (hg : d = 0 → o ≠ mn ∧ o ≠ mx) :
    (axis mn mx o d nz (.fin x) (.fin y) = none ∧ ∀ t, ¬ ((x ≤ t ∧ t ≤ y) ∧ mn ≤ o + t * d ∧ o + t * d ≤ mx)) ∨
    ∃ x' y', axis mn mx o d nz (.fin x) (.fin y) = some (.fin x', .fin y') ∧ x' ≤ y' ∧ ∀ t, (x' ≤ t ∧ t ≤ y') ↔ (x ≤ t ∧ t ≤ y) ∧ mn ≤ o + t * d ∧ o + t * d ≤ mx := by
  -- slab interval [l, u] of a non-parallel axis
  have slab : ∀ l u : K, (∀ t, (mn ≤ o + t * d ∧ o + t * d ≤ mx) ↔ (l ≤ t ∧ t ≤ u)) →
      axis mn mx o d nz (.fin x) (.fin y) = (if elt (emin (.fin u) (.fin y)) (emax (.fin l) (.fin x)) then none else some (emax (.fin l) (.fin x), emin (.fin u) (.fin y))) →
      (axis mn mx o d nz (.fin x) (.fin y) = none ∧ ∀ t, ¬ ((x ≤ t ∧ t ≤ y) ∧ mn ≤ o + t * d ∧ o + t * d ≤ mx)) ∨
      ∃ x' y', axis mn mx o d nz (.fin x) (.fin y) = some (.fin x', .fin y') ∧ x' ≤ y' ∧ ∀ t, (x' ≤ t ∧ t ≤ y') ↔ (x ≤ t ∧ t ≤ y) ∧ mn ≤ o + t * d ∧ o + t * d ≤ mx := by
    intro l u hs he
    have hmax : emax (.fin l) (.fin x) = .fin (max l x) := by
      simp only [emax, elt, decide_eq_true_eq]
      split
      · next h => rw [max_eq_right h.le]
      · next h => rw [max_eq_left (not_lt.mp h)]
    have hmin : emin (.fin u) (.fin y) = .fin (min u y) := by
      simp only [emin, elt, decide_eq_true_eq]
      split
      · next h => rw [min_eq_right h.le]
      · next h => rw [min_eq_left (not_lt.mp h)]
    rw [hmax, hmin] at he
    by_cases hlt : min u y < max l x
    · left
      refine ⟨by rw [he]; simp [elt, hlt], ?_⟩
      rintro t ⟨⟨t1, t2⟩, t3⟩
      obtain ⟨t4, t5⟩ := (hs t).mp t3
      have := max_le t4 t1
      have := le_min t5 t2
      linarith
    · right
      refine ⟨max l x, min u y, by rw [he, if_neg (by simpa [elt] using hlt)], not_lt.mp hlt, ?_⟩
      intro t
      rw [hs t, max_le_iff, le_min_iff]
      tauto
  rcases lt_trichotomy d 0 with hd | hd | hd
  · have hne : d ≠ 0 := ne_of_lt hd
    have hv : elt (recip d nz) (.fin 0) = true := by simp [recip, hne, elt, hd]
    refine slab ((mx - o) * (1 / d)) ((mn - o) * (1 / d)) ?_ ?_
    · intro t
      rw [mul_one_div, mul_one_div, div_le_iff_of_neg hd, le_div_iff_of_neg hd]
      constructor <;> rintro ⟨h1, h2⟩ <;> constructor <;> linarith
    · simp only [axis, hv, if_true]
      simp only [recip, if_neg hne, emul]
  · subst hd
    obtain ⟨g1, g2⟩ := hg rfl
    have e1 : mn - o ≠ 0 := fun h => g1 (by linarith)
    have e2 : mx - o ≠ 0 := fun h => g2 (by linarith)
    simp only [mul_zero, add_zero]
    by_cases h1 : mn < o
    · by_cases h2 : o < mx
      · -- inside: unbounded slab
        have s1 : mn - o < 0 := by linarith
        have s2 : ¬ (mx - o < 0) := by linarith
        by_cases hxy : y < x
        · left
          refine ⟨?_, fun t ⟨⟨t1, t2⟩, _⟩ => by linarith⟩
          cases nz <;> simp [axis, recip, elt, emul, e1, e2, s1, s2, emax, emin, hxy]
        · right
          refine ⟨x, y, ?_, not_lt.mp hxy, fun t => by constructor; exact fun h => ⟨h, h1.le, h2.le⟩; exact fun h => h.1⟩
          cases nz <;> simp [axis, recip, elt, emul, e1, e2, s1, s2, emax, emin, not_lt.mp hxy]
      · left
        have s1 : mn - o < 0 := by linarith
        have s2 : mx - o < 0 := lt_of_le_of_ne (by linarith [not_lt.mp h2]) e2
        refine ⟨?_, fun t ⟨_, _, t3⟩ => by linarith⟩
        cases nz <;> simp [axis, recip, elt, emul, e1, e2, s1, s2, emax, emin]
    · have s1 : ¬ (mn - o < 0) := by linarith
      have hlt : o < mn := lt_of_le_of_ne (not_lt.mp h1) g1
      left
      refine ⟨?_, fun t ⟨_, t2, _⟩ => by linarith⟩
      by_cases s2 : mx - o < 0
      · cases nz <;> simp [axis, recip, elt, emul, e1, e2, s1, s2, emax, emin]
      · cases nz <;> simp [axis, recip, elt, emul, e1, e2, s1, s2, emax, emin]
  · have hne : d ≠ 0 := ne_of_gt hd
    have hv : elt (recip d nz) (.fin 0) = false := by simp [recip, hne, elt, hd.le]
    refine slab ((mn - o) * (1 / d)) ((mx - o) * (1 / d)) ?_ ?_
    · intro t
      rw [mul_one_div, mul_one_div, div_le_iff₀ hd, le_div_iff₀ hd]
      constructor <;> rintro ⟨h1, h2⟩ <;> constructor <;> linarith
    · simp only [axis, hv, Bool.false_eq_true, if_false]
      simp only [recip, if_neg hne, emul]

/-- C31. Away from rays running inside a face plane the test is exact: it answers no exactly when the ray has no point of the box in the interval, and otherwise
    narrows the interval to precisely the parameters of the ray's points in the box. -/
theorem C31_exact (b : Box K) (r : RayK K) (tmin tmax : K) (hg : NoGraze b r) :
    (isectRange b r (.fin tmin) (.fin tmax) = none ∧ ∀ t, tmin ≤ t → t ≤ tmax → ¬ Hits b r t) ∨
    ∃ a c, isectRange b r (.fin tmin) (.fin tmax) = some (.fin a, .fin c) ∧ a ≤ c ∧ ∀ t, (a ≤ t ∧ t ≤ c) ↔ (tmin ≤ t ∧ t ≤ tmax) ∧ Hits b r t := by
  obtain ⟨gx, gy, gz⟩ := hg
  have hh : ∀ t, Hits b r t ↔ (b.min.x ≤ r.o.x + t * r.d.x ∧ r.o.x + t * r.d.x ≤ b.max.x) ∧ (b.min.y ≤ r.o.y + t * r.d.y ∧ r.o.y + t * r.d.y ≤ b.max.y) ∧
      (b.min.z ≤ r.o.z + t * r.d.z ∧ r.o.z + t * r.d.z ≤ b.max.z) := fun t => Iff.rfl
  rcases axis_exact b.min.x b.max.x r.o.x r.d.x r.nz.1 tmin tmax gx with ⟨e1, n1⟩ | ⟨x1, y1, e1, _, i1⟩
  · left
    refine ⟨by simp [isectRange, e1], fun t h1 h2 h3 => n1 t ⟨⟨h1, h2⟩, ((hh t).mp h3).1⟩⟩
  · rcases axis_exact b.min.y b.max.y r.o.y r.d.y r.nz.2.1 x1 y1 gy with ⟨e2, n2⟩ | ⟨x2, y2, e2, _, i2⟩
    · left
      refine ⟨by simp [isectRange, e1, e2], fun t h1 h2 h3 => n2 t ⟨(i1 t).mpr ⟨⟨h1, h2⟩, ((hh t).mp h3).1⟩, ((hh t).mp h3).2.1⟩⟩
    · rcases axis_exact b.min.z b.max.z r.o.z r.d.z r.nz.2.2 x2 y2 gz with ⟨e3, n3⟩ | ⟨x3, y3, e3, l3, i3⟩
      · left
        refine ⟨by simp [isectRange, e1, e2, e3], fun t h1 h2 h3 => n3 t ⟨(i2 t).mpr ⟨(i1 t).mpr ⟨⟨h1, h2⟩, ((hh t).mp h3).1⟩, ((hh t).mp h3).2.1⟩, ((hh t).mp h3).2.2⟩⟩
      · right
        refine ⟨x3, y3, by simp [isectRange, e1, e2, e3], l3, fun t => ?_⟩
        rw [i3 t, i2 t, i1 t, hh t]
        tauto

end RayBox

/-- Non-vacuity, with a zero direction component and the origin on a face plane (NaN products). -/
example : Hits (K := ℚ) ⟨⟨0, 0, 0⟩, ⟨1, 1, 1⟩⟩ ⟨⟨-1, 0, 1/2⟩, ⟨1, 0, 0⟩, (false, false, true)⟩ 1 := by
  simp [Hits, In]; norm_num
example : NoGraze (K := ℚ) ⟨⟨0, 0, 0⟩, ⟨1, 1, 1⟩⟩ ⟨⟨-1, 1/3, 1/2⟩, ⟨1, 0, 0⟩, (false, false, true)⟩ := by
  simp [NoGraze]

end LM.Bound
