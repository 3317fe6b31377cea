import Verif.Props.C87_Closed
/-
  C87: the subpaths that the renderers sample, and the full paths that they are joined to.
-/
namespace LM.Transport
open MeasureTheory LM LM.Surface LM.Material LM.Light LM.MathF LM.Path LM.Render LM.Solid Set
open scoped ENNReal

namespace Site
variable (S : Site)

/-- Points that can be reached from each other, one after the other. -/
def Links : Spot → List Node → Prop
  | _, [] => True
  | x, y :: l => S.Hop x.2 y.1 ∧ S.Hop y.1.2 x ∧ Links y.1 l

/-- Each point is seen from the one before. -/
def Sights : V3 ℝ → List Node → Prop
  | _, [] => True
  | o, y :: l => Sees S.Q o y.1.1 y.1.2 ∧ Sights y.1.2 l

/-- Points with property G that the random walk can reach, going on from x, reached from w. -/
def Good (G : Spot → Prop) : V3 ℝ → Node → List Node → Prop
  | _, _, [] => True
  | w, x, y :: l => S.lk w x y ≠ 0 ∧ S.Fit y ∧ G y.1 ∧ Good G x.1.2 y l

/-- The same from the camera. -/
def GoodE (G : Spot → Prop) : List Node → Prop
  | [] => True
  | y :: l => S.eyeK y ≠ 0 ∧ S.Fit y ∧ G y.1 ∧ S.Good G S.eye y l

/-- The same from the point z of a light. -/
def GoodL (G : Spot → Prop) (z : Spot) : List Node → Prop
  | [] => True
  | y :: l => S.lampK z y ≠ 0 ∧ S.Fit y ∧ G y.1 ∧ S.Good G z.2 y l

/-- The last of the points. -/
def endS : Spot → List Node → Spot
  | z, [] => z
  | _, y :: l => endS y.1 l

variable {S}

/-! ### Factors that are not zero -/

theorem endS_pos (z : Spot) (l : List Node) : (endS z l).2 = lastP z.2 l := by
  induction l generalizing z with
  | nil => rfl
  | cons y l ih => exact ih y.1

theorem lastP_endS (o : V3 ℝ) (y : Node) (l : List Node) : lastP o (y :: l) = (endS y.1 l).2 := (endS_pos _ _).symm

theorem hop_of_facing {o : V3 ℝ} {y : Spot} (h : S.facing o y ≠ 0) : S.Hop o y := by
  have hne : o ≠ y.2 := by
    rintro rfl
    apply h
    unfold facing
    simp [V3.dot]
  refine ⟨hne, fun c => h ?_⟩
  unfold facing
  rw [dirOf_swap y.2 o, V3.dot_neg_right, abs_neg, V3.dot_comm, c]
  simp

theorem hop_of_cos {x : Spot} {q : V3 ℝ} (hne : q ≠ x.2) (h : S.cosAt x q ≠ 0) : S.Hop q x := by
  refine ⟨hne, fun c => h ?_⟩
  unfold cosAt
  rw [V3.dot_comm, c, abs_zero]

theorem facing_pos {o : V3 ℝ} {y : Spot} (h : S.Hop o y) : 0 < S.facing o y := by
  have hp : 0 < V3.dot (y.2 - o) (y.2 - o) := lt_of_le_of_ne (dot_self_nonneg _) (Ne.symm (sub_dot_ne h.1))
  refine div_pos (abs_pos.mpr ?_) hp
  rw [dirOf_swap y.2 o, V3.dot_neg_right, V3.dot_comm]
  exact neg_ne_zero.mpr h.2

theorem cos_pos {x : Spot} {q : V3 ℝ} (h : S.Hop q x) : 0 < S.cosAt x q := by
  refine abs_pos.mpr ?_
  rw [V3.dot_comm]
  exact h.2

theorem ite_ofReal_ne {p : Prop} [Decidable p] {a : ℝ} (h : (if p then ENNReal.ofReal a else 0) ≠ 0) : p ∧ 0 < a := by
  by_cases hp : p
  · rw [if_pos hp] at h
    exact ⟨hp, ENNReal.ofReal_pos.mp (pos_iff_ne_zero.mpr h)⟩
  · rw [if_neg hp] at h
    exact absurd rfl h

theorem lk_ne {w : V3 ℝ} {x y : Node} (h : S.lk w x y ≠ 0) : Sees S.Q x.1.2 y.1.1 y.1.2 ∧ 0 < S.linkR w x y ∧ S.Hop x.1.2 y.1 ∧ S.Hop y.1.2 x.1 := by
  classical
  obtain ⟨h1, h2⟩ := ite_ofReal_ne h
  refine ⟨h1, h2, ?_⟩
  have h2 := h2.ne'
  unfold linkR goR at h2
  have hf := right_ne_zero_of_mul (left_ne_zero_of_mul h2)
  have hc := right_ne_zero_of_mul (left_ne_zero_of_mul (left_ne_zero_of_mul h2))
  have hh := hop_of_facing hf
  exact ⟨hh, hop_of_cos hh.1.symm hc⟩

theorem eyeK_ne {y : Node} (h : S.eyeK y ≠ 0) : Sees S.Q S.eye y.1.1 y.1.2 ∧ 0 < S.eyeR y.1 * S.pickR S.eye y ∧ S.Hop S.eye y.1 := by
  classical
  obtain ⟨h1, h2⟩ := ite_ofReal_ne h
  refine ⟨h1, h2, ?_⟩
  have h2 := h2.ne'
  unfold eyeR at h2
  exact hop_of_facing (right_ne_zero_of_mul (left_ne_zero_of_mul h2))

theorem lampK_ne {z : Spot} {y : Node} (h : S.lampK z y ≠ 0) : Sees S.Q z.2 y.1.1 y.1.2 ∧ 0 < S.lampR z y.1 * S.pickR z.2 y ∧ S.Hop z.2 y.1 ∧ S.Hop y.1.2 z := by
  classical
  obtain ⟨h1, h2⟩ := ite_ofReal_ne h
  refine ⟨h1, h2, ?_⟩
  have h2 := h2.ne'
  unfold lampR at h2
  have hf := right_ne_zero_of_mul (left_ne_zero_of_mul h2)
  have hc := right_ne_zero_of_mul (left_ne_zero_of_mul (left_ne_zero_of_mul h2))
  have hh := hop_of_facing hf
  exact ⟨hh, hop_of_cos hh.1.symm hc⟩

section
variable {G : Spot → Prop}

theorem Good.links {w : V3 ℝ} {x : Node} {l : List Node} (h : S.Good G w x l) : S.Links x.1 l := by
  induction l generalizing w x with
  | nil => trivial
  | cons y l ih =>
    obtain ⟨_, _, a, b⟩ := lk_ne h.1
    exact ⟨a, b, ih h.2.2.2⟩

theorem Good.sights {w : V3 ℝ} {x : Node} {l : List Node} (h : S.Good G w x l) : S.Sights x.1.2 l := by
  induction l generalizing w x with
  | nil => trivial
  | cons y l ih => exact ⟨(lk_ne h.1).1, ih h.2.2.2⟩

theorem Good.pos {w : V3 ℝ} {x : Node} {l : List Node} (h : S.Good G w x l) : 0 < S.linksR w x l := by
  induction l generalizing w x with
  | nil => exact one_pos
  | cons y l ih => exact mul_pos (lk_ne h.1).2.1 (ih h.2.2.2)

theorem Good.fit {w : V3 ℝ} {x : Node} {l : List Node} (h : S.Good G w x l) : ∀ y ∈ l, S.Fit y ∧ G y.1 := by
  induction l generalizing w x with
  | nil => simp
  | cons y l ih =>
    intro y' hy'
    rcases List.mem_cons.mp hy' with rfl | hy'
    · exact ⟨h.2.1, h.2.2.1⟩
    · exact ih h.2.2.2 y' hy'

theorem Good.mono {G' : Spot → Prop} (hG : ∀ y, G y → G' y) {w : V3 ℝ} {x : Node} {l : List Node} (h : S.Good G w x l) : S.Good G' w x l := by
  induction l generalizing w x with
  | nil => trivial
  | cons y l ih => exact ⟨h.1, h.2.1, hG _ h.2.2.1, ih h.2.2.2⟩

theorem Good.take {w : V3 ℝ} {x : Node} {l : List Node} (h : S.Good G w x l) (k : ℕ) : S.Good G w x (l.take k) := by
  induction l generalizing w x k with
  | nil => simpa using h
  | cons y l ih =>
    cases k with
    | zero => trivial
    | succ k => exact ⟨h.1, h.2.1, h.2.2.1, ih h.2.2.2 k⟩

theorem GoodE.take {l : List Node} (h : S.GoodE G l) (k : ℕ) : S.GoodE G (l.take k) := by
  cases l with
  | nil => simpa using h
  | cons y l =>
    cases k with
    | zero => trivial
    | succ k => exact ⟨h.1, h.2.1, h.2.2.1, h.2.2.2.take k⟩

theorem GoodL.take {z : Spot} {l : List Node} (h : S.GoodL G z l) (k : ℕ) : S.GoodL G z (l.take k) := by
  cases l with
  | nil => simpa using h
  | cons y l =>
    cases k with
    | zero => trivial
    | succ k => exact ⟨h.1, h.2.1, h.2.2.1, h.2.2.2.take k⟩

theorem GoodE.fit {l : List Node} (h : S.GoodE G l) : ∀ y ∈ l, S.Fit y ∧ G y.1 := by
  cases l with
  | nil => simp
  | cons y l =>
    intro y' hy'
    rcases List.mem_cons.mp hy' with rfl | hy'
    · exact ⟨h.2.1, h.2.2.1⟩
    · exact h.2.2.2.fit y' hy'

theorem GoodL.fit {z : Spot} {l : List Node} (h : S.GoodL G z l) : ∀ y ∈ l, S.Fit y ∧ G y.1 := by
  cases l with
  | nil => simp
  | cons y l =>
    intro y' hy'
    rcases List.mem_cons.mp hy' with rfl | hy'
    · exact ⟨h.2.1, h.2.2.1⟩
    · exact h.2.2.2.fit y' hy'

theorem GoodE.pos {l : List Node} (h : S.GoodE G l) : 0 < S.eyesR l := by
  cases l with
  | nil => exact one_pos
  | cons y l => exact mul_pos (eyeK_ne h.1).2.1 h.2.2.2.pos

theorem GoodL.pos {z : Spot} (hz : 0 < S.pA z.1) {l : List Node} (h : S.GoodL G z l) : 0 < S.lampsR z l := by
  cases l with
  | nil => exact hz
  | cons y l => exact mul_pos (mul_pos hz (lampK_ne h.1).2.1) h.2.2.2.pos

theorem GoodL.links {z : Spot} {l : List Node} (h : S.GoodL G z l) : S.Links z l := by
  cases l with
  | nil => trivial
  | cons y l => exact ⟨(lampK_ne h.1).2.2.1, (lampK_ne h.1).2.2.2, h.2.2.2.links⟩

theorem GoodL.sights {z : Spot} {l : List Node} (h : S.GoodL G z l) : S.Sights z.2 l := by
  cases l with
  | nil => trivial
  | cons y l => exact ⟨(lampK_ne h.1).1, h.2.2.2.sights⟩

theorem GoodE.sights {l : List Node} (h : S.GoodE G l) : S.Sights S.eye l := by
  cases l with
  | nil => trivial
  | cons y l => exact ⟨(eyeK_ne h.1).1, h.2.2.2.sights⟩

end

/-! ### Reaching the points in either order -/

theorem Links.hops {x : Spot} {l : List Node} (h : S.Links x l) : S.Hops x.2 l := by
  induction l generalizing x with
  | nil => trivial
  | cons y l ih => exact ⟨h.1, ih h.2.2⟩

theorem hops_append {o : V3 ℝ} {a b : List Node} : S.Hops o (a ++ b) ↔ S.Hops o a ∧ S.Hops (lastP o a) b := by
  induction a generalizing o with
  | nil => simp [Hops, lastP]
  | cons y a ih =>
    show S.Hop o y.1 ∧ S.Hops y.1.2 (a ++ b) ↔ (S.Hop o y.1 ∧ S.Hops y.1.2 a) ∧ S.Hops (lastP y.1.2 a) b
    rw [ih, and_assoc]

theorem lastP_append (o : V3 ℝ) (a b : List Node) : lastP o (a ++ b) = lastP (lastP o a) b := by
  induction a generalizing o with
  | nil => rfl
  | cons y a ih => exact ih y.1.2

theorem lastP_reverse (o : V3 ℝ) (y : Node) (l : List Node) : lastP o (y :: l).reverse = y.1.2 := by rw [List.reverse_cons, lastP_snoc]

theorem Links.reverse {o : V3 ℝ} {y : Node} {l : List Node} (h : S.Links y.1 l) (he : S.Hop o (endS y.1 l)) : S.Hops o (y :: l).reverse := by
  induction l generalizing y with
  | nil => exact ⟨he, trivial⟩
  | cons y' l ih =>
    rw [List.reverse_cons, hops_append]
    refine ⟨ih h.2.2 he, ?_⟩
    rw [lastP_reverse]
    exact ⟨h.2.1, trivial⟩

theorem GoodE.hops {G : Spot → Prop} {l : List Node} (h : S.GoodE G l) : S.Hops S.eye l := by
  cases l with
  | nil => trivial
  | cons y l => exact ⟨(eyeK_ne h.1).2.2, h.2.2.2.links.hops⟩

/-- The ends of the subpaths can be reached from each other. -/
def Joint (S : Site) (e : List Node) (z : Spot) (l : List Node) : Prop := S.Hop (lastP S.eye e) (endS z l) ∧ ∀ y e', e = y :: e' → S.Hop (lastP z.2 l) (endS y.1 e')

theorem Joint.clear {G G' : Spot → Prop} {e l : List Node} {z : Spot} (hE : S.GoodE G e) (hL : S.GoodL G' z l) (hj : Joint S e z l) : S.Clear (e ++ l.reverse) z := by
  refine ⟨?_, ?_, ?_⟩
  · rw [hops_append]
    refine ⟨hE.hops, ?_⟩
    cases l with
    | nil => trivial
    | cons y l => exact hL.links.2.2.reverse hj.1
  · rw [List.reverse_append, List.reverse_reverse, hops_append]
    refine ⟨hL.links.hops, ?_⟩
    cases e with
    | nil => trivial
    | cons y e => exact hE.2.2.2.links.reverse (hj.2 y e rfl)
  · rw [lastP_append]
    cases l with
    | nil => exact hj.1.1
    | cons y l =>
      rw [lastP_reverse]
      exact hL.links.1.1.symm

/-! ### What is seen, in either order -/

/-- A point inside a triangle of its primitive. -/
def Placed (S : Site) (y : Spot) : Prop := ∃ g ∈ S.Fs, g.1 = y.1 ∧ Inside g.2 y.2

theorem Placed.prim {y : Spot} (h : Placed S y) : y.1 ∈ S.Fs.map (·.1) := by
  obtain ⟨g, hg, e, _⟩ := h
  exact List.mem_map.mpr ⟨g, hg, e⟩

theorem Sound.cross (h : S.Sound) {y : Spot} {g : Int × Tri} (hg : g ∈ S.Fs) (e : g.1 = y.1) (hi : Inside g.2 y.2) {o : V3 ℝ} (ho : S.Hop o y) : V3.dot (triCross g.2) (y.2 - o) ≠ 0 := by
  intro c
  have hn : S.nrm y = (S.vertex y.1 y.2).geom.gn := h.flat _ (Placed.prim ⟨g, hg, e, hi⟩) _
  have hgn := h.faceted.normal g hg y.2 hi
  rw [e] at hgn
  apply ho.2
  have hp : 0 < V3.dot (o - y.2) (o - y.2) := lt_of_le_of_ne (dot_self_nonneg _) (Ne.symm (sub_dot_ne ho.1.symm))
  have hz : V3.dot (dirOf (o - y.2)) (dirOf (triCross g.2)) = 0 := by
    unfold dirOf
    rw [V3.dot_smul_right, V3.dot_comm (_ • _), V3.dot_smul_right]
    have : V3.dot (triCross g.2) (o - y.2) = 0 := by rw [show o - y.2 = -(y.2 - o) by abel, V3.dot_neg_right, c, neg_zero]
    rw [this]
    simp
  rw [hn]
  rcases hgn with e' | e'
  · rw [e', hz]
  · rw [e', V3.dot_neg_right, hz, neg_zero]

theorem Sound.sees_swap (h : S.Sound) {x y : Spot} (hx : Placed S x) (hy : Placed S y) (h1 : S.Hop x.2 y) (h2 : S.Hop y.2 x) : Sees S.Q x.2 y.1 y.2 ↔ Sees S.Q y.2 x.1 x.2 := by
  obtain ⟨s, hs, es, is⟩ := hx
  obtain ⟨t, ht, et, it⟩ := hy
  have c1 := h.cross ht et it h1
  have c2 := h.cross hs es is h2
  have c2' : V3.dot (triCross s.2) (y.2 - x.2) ≠ 0 := by
    intro c
    apply c2
    rw [show x.2 - y.2 = -(y.2 - x.2) by abel, V3.dot_neg_right, c, neg_zero]
  have := h.faceted.both s hs t ht x.2 y.2 is it c2' c1
  unfold Sees
  rw [es, et] at this
  exact this

theorem seen_append {o : V3 ℝ} {a b : List Node} {z : Spot} : Seen S o (a ++ b) z ↔ S.Sights o a ∧ Seen S (lastP o a) b z := by
  induction a generalizing o with
  | nil => simp [Sights, lastP]
  | cons y a ih =>
    show Sees S.Q o y.1.1 y.1.2 ∧ Seen S y.1.2 (a ++ b) z ↔ (Sees S.Q o y.1.1 y.1.2 ∧ S.Sights y.1.2 a) ∧ Seen S (lastP y.1.2 a) b z
    rw [ih, and_assoc]

/-- Backwards along the light subpath. -/
theorem Sound.seen_back (h : S.Sound) {z : Spot} (hz : Placed S z) {l : List Node} (hl : S.Links z l) (hs : S.Sights z.2 l) (hp : ∀ y ∈ l, Placed S y.1) (o : V3 ℝ) : Seen S o l.reverse z ↔ Sees S.Q o (endS z l).1 (endS z l).2 := by
  induction l generalizing z with
  | nil => exact Iff.rfl
  | cons y l ih =>
    have hy := hp y (by simp)
    have e : Seen S o (y :: l).reverse z ↔ Seen S o l.reverse y.1 := by
      rw [List.reverse_cons, seen_append]
      have h0 : Seen S (lastP o l.reverse) [y] z ↔ Sees S.Q (lastP o l.reverse) y.1.1 y.1.2 := by
        show (_ ∧ Sees S.Q y.1.2 z.1 z.2) ↔ _
        rw [← h.sees_swap hz hy hl.1 hl.2.1]
        exact and_iff_left hs.1
      rw [h0]
      have h1 : Seen S o (l.reverse ++ []) y.1 ↔ _ := seen_append
      rw [List.append_nil] at h1
      exact h1.symm
    rw [e]
    exact ih hy hl.2.2 hs.2 fun y' hy' => hp y' (by simp [hy'])

/-- The full path is seen, if the ends of the subpaths see each other. -/
theorem Sound.seen_join (h : S.Sound) {G G' : Spot → Prop} {e l : List Node} {z : Spot} (hE : S.GoodE G e) (hL : S.GoodL G' z l) (hz : Placed S z) (hp : ∀ y ∈ l, Placed S y.1) :
    Seen S S.eye (e ++ l.reverse) z ↔ Sees S.Q (lastP S.eye e) (endS z l).1 (endS z l).2 := by
  rw [seen_append, h.seen_back hz hL.links hL.sights hp]
  exact and_iff_right hE.sights

/-! ### Paths that contribute -/

theorem tail_ne {i : Fin 3} {w : V3 ℝ} {x : Node} {l : List Node} {z : Spot} (h : S.tail i w x l z ≠ 0) : S.Links x.1 l ∧ S.Hop (lastP x.1.2 l) z ∧ S.Hop z.2 (endS x.1 l) := by
  have key : ∀ (y : Spot), S.carry i w x y ≠ 0 → S.Hop x.1.2 y ∧ S.Hop y.2 x.1 := fun y hy => by
    have hf : S.facing x.1.2 y ≠ 0 := by
      intro c
      unfold carry at hy
      rw [c] at hy
      simp at hy
    have hh := hop_of_facing hf
    refine ⟨hh, hop_of_cos hh.1.symm ?_⟩
    intro c
    unfold carry kern at hy
    have : |V3.dot (dirOf (y.2 - x.1.2)) (S.vertex x.1.1 x.1.2).geom.n| = 0 := by rw [V3.dot_comm]; exact c
    rw [this] at hy
    simp at hy
  induction l generalizing w x with
  | nil =>
    simp only [tail] at h
    have h1 : S.carry i w x z ≠ 0 := fun c => h (by rw [c]; simp)
    exact ⟨trivial, key z h1⟩
  | cons y l ih =>
    simp only [tail] at h
    have h1 : S.carry i w x y.1 ≠ 0 := fun c => h (by rw [c]; simp)
    have h2 : S.tail i x.1.2 y l z ≠ 0 := fun c => h (by rw [c]; simp)
    have hk : ∀ (y_1 : Spot), S.carry i x.1.2 y y_1 ≠ 0 → S.Hop y.1.2 y_1 ∧ S.Hop y_1.2 y.1 := fun y1 hy => by
      have hf : S.facing y.1.2 y1 ≠ 0 := by
        intro c
        unfold carry at hy
        rw [c] at hy
        simp at hy
      have hh := hop_of_facing hf
      refine ⟨hh, hop_of_cos hh.1.symm ?_⟩
      intro c
      unfold carry kern at hy
      have : |V3.dot (dirOf (y1.2 - y.1.2)) (S.vertex y.1.1 y.1.2).geom.n| = 0 := by rw [V3.dot_comm]; exact c
      rw [this] at hy
      simp at hy
    obtain ⟨a, b, c⟩ := ih h2 hk
    obtain ⟨d, e⟩ := key y.1 h1
    exact ⟨⟨d, e, a⟩, b, c⟩

theorem whole_ne {i : Fin 3} {m : List Node} {z : Spot} (h : S.whole i m z ≠ 0) : S.Hop (lastP S.eye m) z ∧ S.Clear m z := by
  cases m with
  | nil =>
    simp only [whole] at h
    have hf : S.facing S.eye z ≠ 0 := fun c => h (by rw [c]; simp)
    have hh := hop_of_facing hf
    exact ⟨hh, trivial, trivial, hh.1⟩
  | cons y l =>
    simp only [whole] at h
    have hf : S.facing S.eye y.1 ≠ 0 := fun c => h (by rw [c]; simp)
    have ht : S.tail i S.eye y l z ≠ 0 := fun c => h (by rw [c]; simp)
    obtain ⟨a, b, c⟩ := tail_ne ht
    exact ⟨b, ⟨hop_of_facing hf, a.hops⟩, a.reverse c, b.1⟩

theorem clear_joint {e l : List Node} {z : Spot} (h : S.Clear (e ++ l.reverse) z) (hz : l = [] → S.Hop (lastP S.eye e) z) : Joint S e z l := by
  refine ⟨?_, ?_⟩
  · cases l with
    | nil => exact hz rfl
    | cons y l =>
      have h1 := (hops_append.mp h.there).2
      rcases List.eq_nil_or_concat l with rfl | ⟨l', x, rfl⟩
      · exact h1.1
      · have e1 : endS z (y :: l'.concat x) = x.1 := by
          have : ∀ (z : Spot) (l' : List Node), endS z (l' ++ [x]) = x.1 := fun z l' => by
            induction l' generalizing z with
            | nil => rfl
            | cons a l' ih => exact ih a.1
          rw [List.concat_eq_append, ← List.cons_append, this]
        rw [e1]
        rw [List.concat_eq_append, ← List.cons_append, List.reverse_append] at h1
        exact h1.1
  · intro y e' he
    subst he
    have h2 := h.back
    rw [List.reverse_append, List.reverse_reverse] at h2
    have h1 := (hops_append.mp h2).2
    rcases List.eq_nil_or_concat e' with rfl | ⟨l', x, rfl⟩
    · exact h1.1
    · have e1 : endS y.1 (l'.concat x) = x.1 := by
        have : ∀ (z : Spot) (l' : List Node), endS z (l' ++ [x]) = x.1 := fun z l' => by
          induction l' generalizing z with
          | nil => rfl
          | cons a l' ih => exact ih a.1
        rw [List.concat_eq_append, this]
      rw [e1]
      rw [List.concat_eq_append, ← List.cons_append, List.reverse_append] at h1
      exact h1.1

/-- Paths that contribute are joined from ends that can be reached from each other. -/
theorem whole_joint {i : Fin 3} {e l : List Node} {z : Spot} (h : S.whole i (e ++ l.reverse) z ≠ 0) : Joint S e z l := by
  obtain ⟨a, b⟩ := whole_ne h
  refine clear_joint b ?_
  rintro rfl
  simpa using a

end Site

end LM.Transport
