import Verif.Props.C36_BvhBuild
import Mathlib.Order.Bounds.Basic
import Mathlib.Tactic.NormNum
import Mathlib.Tactic.FieldSimp
/-
  C83: the splits of the BVH minimise the surface area heuristic.
-/
namespace LM.Bvh
open LM LM.Bound

/-! ### Specification -/

/-- `lo`, `hi` are the corners of the smallest box around the given boxes. -/
def Hull (bs : List (Box ℚ)) (lo hi : V3 ℚ) : Prop :=
  IsLeast {x | ∃ b ∈ bs, x = b.min.x} lo.x ∧ IsLeast {x | ∃ b ∈ bs, x = b.min.y} lo.y ∧ IsLeast {x | ∃ b ∈ bs, x = b.min.z} lo.z ∧
  IsGreatest {x | ∃ b ∈ bs, x = b.max.x} hi.x ∧ IsGreatest {x | ∃ b ∈ bs, x = b.max.y} hi.y ∧ IsGreatest {x | ∃ b ∈ bs, x = b.max.z} hi.z

/-- `a` is the surface area of the smallest box around the given boxes. -/
def HullArea (bs : List (Box ℚ)) (a : ℚ) : Prop :=
  ∃ lo hi : V3 ℚ, Hull bs lo hi ∧ a = 2 * ((hi.x - lo.x) * (hi.y - lo.y) + (hi.y - lo.y) * (hi.z - lo.z) + (hi.z - lo.z) * (hi.x - lo.x))

/-- The surface area heuristic: expected cost, in triangle tests, of a node of area `N` split into triangles `L` and `R`: one for the node, and
    for each child its number of triangles times the probability of hitting it. -/
def SplitCost (trs : ℕ → Tri) (L R : List ℕ) (N c : ℚ) : Prop :=
  ∃ aL aR, HullArea (L.map fun k => (trs k).b) aL ∧ HullArea (R.map fun k => (trs k).b) aR ∧ c = 1 + (aL / N * L.length + aR / N * R.length)

/-- Ordered by the centre along the axis. -/
def SortedBy (trs : ℕ → Tri) (ax : ℕ) (sg : List ℕ) : Prop := sg.Pairwise fun a b => coord (trs a).c ax ≤ coord (trs b).c ax

/-- Coordinates within the sentinel. -/
def InRange (b : Box ℚ) : Prop :=
  b.min.x ≤ 10 ^ 10 ∧ b.min.y ≤ 10 ^ 10 ∧ b.min.z ≤ 10 ^ 10 ∧ -10 ^ 10 ≤ b.max.x ∧ -10 ^ 10 ≤ b.max.y ∧ -10 ^ 10 ≤ b.max.z

/-! ### Bounds -/

theorem foldl_least (f : ℕ → ℚ) (l : List ℕ) (b : ℚ) : IsLeast ({x | ∃ k ∈ l, x = f k} ∪ {b}) (l.foldl (fun m k => gmin m (f k)) b) := by
  induction l generalizing b with
  | nil => simp [IsLeast, lowerBounds]
  | cons i l ih =>
    have := ih (gmin b (f i))
    simp only [List.foldl_cons]
    generalize l.foldl (fun m k => gmin m (f k)) (gmin b (f i)) = r at this
    obtain ⟨hm, hl⟩ := this
    have hg : r ≤ gmin b (f i) := hl (by simp)
    have h1 : gmin b (f i) ≤ b ∧ gmin b (f i) ≤ f i := by
      unfold gmin; split <;> constructor <;> linarith
    constructor
    · rcases hm with ⟨k, hk, hx⟩ | hb
      · exact .inl ⟨k, by simp [hk], hx⟩
      · simp only [Set.mem_singleton_iff] at hb
        rw [hb]; unfold gmin; split
        · exact .inl ⟨i, by simp, rfl⟩
        · exact .inr rfl
    · rintro x (⟨k, hk, hx⟩ | hb)
      · rcases List.mem_cons.mp hk with rfl | hk
        · rw [hx]; linarith [h1.2]
        · exact hl (.inl ⟨k, hk, hx⟩)
      · simp only [Set.mem_singleton_iff] at hb
        rw [hb]; linarith [h1.1]

theorem foldl_greatest (f : ℕ → ℚ) (l : List ℕ) (b : ℚ) : IsGreatest ({x | ∃ k ∈ l, x = f k} ∪ {b}) (l.foldl (fun m k => gmax m (f k)) b) := by
  induction l generalizing b with
  | nil => simp [IsGreatest, upperBounds]
  | cons i l ih =>
    have := ih (gmax b (f i))
    simp only [List.foldl_cons]
    generalize l.foldl (fun m k => gmax m (f k)) (gmax b (f i)) = r at this
    obtain ⟨hm, hl⟩ := this
    have hg : gmax b (f i) ≤ r := hl (by simp)
    have h1 : b ≤ gmax b (f i) ∧ f i ≤ gmax b (f i) := by
      unfold gmax; split <;> constructor <;> linarith
    constructor
    · rcases hm with ⟨k, hk, hx⟩ | hb
      · exact .inl ⟨k, by simp [hk], hx⟩
      · simp only [Set.mem_singleton_iff] at hb
        rw [hb]; unfold gmax; split
        · exact .inl ⟨i, by simp, rfl⟩
        · exact .inr rfl
    · rintro x (⟨k, hk, hx⟩ | hb)
      · rcases List.mem_cons.mp hk with rfl | hk
        · rw [hx]; linarith [h1.2]
        · exact hl (.inl ⟨k, hk, hx⟩)
      · simp only [Set.mem_singleton_iff] at hb
        rw [hb]; linarith [h1.1]

theorem foldl_merge (trs : ℕ → Tri) (l : List ℕ) (b : Box ℚ) : l.foldl (fun b i => merge b (trs i).b) b =
    ⟨⟨l.foldl (fun m k => gmin m (trs k).b.min.x) b.min.x, l.foldl (fun m k => gmin m (trs k).b.min.y) b.min.y, l.foldl (fun m k => gmin m (trs k).b.min.z) b.min.z⟩,
     ⟨l.foldl (fun m k => gmax m (trs k).b.max.x) b.max.x, l.foldl (fun m k => gmax m (trs k).b.max.y) b.max.y, l.foldl (fun m k => gmax m (trs k).b.max.z) b.max.z⟩⟩ := by
  induction l generalizing b with
  | nil => rfl
  | cons i l ih => simp only [List.foldl_cons, ih]; rfl

theorem least_of {f : ℕ → ℚ} {g : Box ℚ → ℚ} {trs : ℕ → Tri} (hg : ∀ k, f k = g (trs k).b) {l : List ℕ} {b : ℚ} (hl : l ≠ []) (hb : ∀ k ∈ l, f k ≤ b) {r : ℚ}
    (h : IsLeast ({x | ∃ k ∈ l, x = f k} ∪ {b}) r) : IsLeast {x | ∃ c ∈ l.map (fun k => (trs k).b), x = g c} r := by
  obtain ⟨k0, hk0⟩ := List.exists_mem_of_ne_nil l hl
  constructor
  · rcases h.1 with ⟨k, hk, hx⟩ | hx
    · exact ⟨_, List.mem_map.mpr ⟨k, hk, rfl⟩, by rw [hx, hg]⟩
    · simp only [Set.mem_singleton_iff] at hx
      have h1 : r ≤ f k0 := h.2 (.inl ⟨k0, hk0, rfl⟩)
      refine ⟨_, List.mem_map.mpr ⟨k0, hk0, rfl⟩, ?_⟩
      rw [← hg]; linarith [hb k0 hk0]
  · rintro x ⟨c, hc, hx⟩
    obtain ⟨k, hk, rfl⟩ := List.mem_map.mp hc
    exact h.2 (.inl ⟨k, hk, by rw [hx, hg]⟩)

theorem greatest_of {f : ℕ → ℚ} {g : Box ℚ → ℚ} {trs : ℕ → Tri} (hg : ∀ k, f k = g (trs k).b) {l : List ℕ} {b : ℚ} (hl : l ≠ []) (hb : ∀ k ∈ l, b ≤ f k) {r : ℚ}
    (h : IsGreatest ({x | ∃ k ∈ l, x = f k} ∪ {b}) r) : IsGreatest {x | ∃ c ∈ l.map (fun k => (trs k).b), x = g c} r := by
  obtain ⟨k0, hk0⟩ := List.exists_mem_of_ne_nil l hl
  constructor
  · rcases h.1 with ⟨k, hk, hx⟩ | hx
    · exact ⟨_, List.mem_map.mpr ⟨k, hk, rfl⟩, by rw [hx, hg]⟩
    · simp only [Set.mem_singleton_iff] at hx
      have h1 : f k0 ≤ r := h.2 (.inl ⟨k0, hk0, rfl⟩)
      refine ⟨_, List.mem_map.mpr ⟨k0, hk0, rfl⟩, ?_⟩
      rw [← hg]; linarith [hb k0 hk0]
  · rintro x ⟨c, hc, hx⟩
    obtain ⟨k, hk, rfl⟩ := List.mem_map.mp hc
    exact h.2 (.inl ⟨k, hk, by rw [hx, hg]⟩)

theorem area_hull (trs : ℕ → Tri) (l : List ℕ) (hl : l ≠ []) (hr : ∀ k ∈ l, InRange (trs k).b) :
    HullArea (l.map fun k => (trs k).b) (surfaceArea (l.foldl (fun b i => merge b (trs i).b) dflt)) := by
  rw [foldl_merge]
  refine ⟨_, _, ⟨?_, ?_, ?_, ?_, ?_, ?_⟩, rfl⟩
  · exact least_of (f := fun k => (trs k).b.min.x) (g := fun b => b.min.x) (fun _ => rfl) hl (fun k hk => (hr k hk).1) (foldl_least _ l _)
  · exact least_of (f := fun k => (trs k).b.min.y) (g := fun b => b.min.y) (fun _ => rfl) hl (fun k hk => (hr k hk).2.1) (foldl_least _ l _)
  · exact least_of (f := fun k => (trs k).b.min.z) (g := fun b => b.min.z) (fun _ => rfl) hl (fun k hk => (hr k hk).2.2.1) (foldl_least _ l _)
  · exact greatest_of (f := fun k => (trs k).b.max.x) (g := fun b => b.max.x) (fun _ => rfl) hl (fun k hk => (hr k hk).2.2.2.1) (foldl_greatest _ l _)
  · exact greatest_of (f := fun k => (trs k).b.max.y) (g := fun b => b.max.y) (fun _ => rfl) hl (fun k hk => (hr k hk).2.2.2.2.1) (foldl_greatest _ l _)
  · exact greatest_of (f := fun k => (trs k).b.max.z) (g := fun b => b.max.z) (fun _ => rfl) hl (fun k hk => (hr k hk).2.2.2.2.2) (foldl_greatest _ l _)

theorem hullArea_unique {bs bs' : List (Box ℚ)} (hp : ∀ b, b ∈ bs ↔ b ∈ bs') {a a' : ℚ} (h : HullArea bs a) (h' : HullArea bs' a') : a = a' := by
  obtain ⟨lo, hi, ⟨h1, h2, h3, h4, h5, h6⟩, rfl⟩ := h
  obtain ⟨lo', hi', ⟨k1, k2, k3, k4, k5, k6⟩, rfl⟩ := h'
  simp only [← hp] at k1 k2 k3 k4 k5 k6
  rw [h1.unique k1, h2.unique k2, h3.unique k3, h4.unique k4, h5.unique k5, h6.unique k6]

theorem splitCost_unique {trs : ℕ → Tri} {L R : List ℕ} {N c c' : ℚ} (h : SplitCost trs L R N c) (h' : SplitCost trs L R N c') : c = c' := by
  obtain ⟨aL, aR, h1, h2, rfl⟩ := h
  obtain ⟨aL', aR', h1', h2', rfl⟩ := h'
  rw [hullArea_unique (fun _ => Iff.rfl) h1 h1', hullArea_unique (fun _ => Iff.rfl) h2 h2']

/-- The cost the builder computes is the cost of the split. -/
theorem sahCost_split (trs : ℕ → Tri) (sg : List ℕ) (N : ℚ) (hN : N ≠ 0) (i : ℕ) (h1 : 1 ≤ i) (h2 : i < sg.length) (hr : ∀ k ∈ sg, InRange (trs k).b) :
    ∃ c, sahCost trs sg N i = some c ∧ SplitCost trs (sg.take i) (sg.drop i) N c := by
  refine ⟨1 + (sahL trs sg i + sahR trs sg i) / N, by unfold sahCost; rw [if_neg hN], ?_⟩
  refine ⟨surfaceArea ((sg.take i).foldl (fun b i => merge b (trs i).b) dflt), surfaceArea ((sg.drop i).reverse.foldl (fun b i => merge b (trs i).b) dflt),
    area_hull trs (sg.take i) (by intro h; have := congrArg List.length h; rw [List.length_take, List.length_nil] at this; omega) (fun k hk => hr k (List.mem_of_mem_take hk)), ?_, ?_⟩
  · obtain ⟨lo, hi, h, e⟩ := area_hull trs (sg.drop i).reverse (by intro h; have := congrArg List.length h; simp at this; omega) (fun k hk => hr k (List.mem_of_mem_drop (by simpa using hk)))
    refine ⟨lo, hi, ?_, e⟩
    unfold Hull at h ⊢
    simpa using h
  · unfold sahL sahR
    rw [List.length_take, List.length_drop, Nat.min_eq_left (by omega)]
    field_simp

/-! ### The choice -/

theorem sahAxis_min (trs : ℕ → Tri) (sg : List ℕ) (N : ℚ) (a : ℕ) (best : Best) :
    (sahAxis trs sg N a best).b ≤ best.b ∧
    (∀ i c, 1 ≤ i → i < sg.length → sahCost trs sg N i = some c → (sahAxis trs sg N a best).b ≤ c) ∧
    (sahAxis trs sg N a best = best ∨ ∃ i, 1 ≤ i ∧ i < sg.length ∧ sahCost trs sg N i = some (sahAxis trs sg N a best).b ∧ (sahAxis trs sg N a best).ia = some (i, a)) := by
  unfold sahAxis
  have gen : ∀ (is : List ℕ) (best : Best), (∀ i ∈ is, 1 ≤ i ∧ i < sg.length) →
      let r := is.foldl (fun best i =>
        match sahCost trs sg N i with
        | none => best
        | some c => if c < best.b then ⟨c, some (i, a)⟩ else best) best
      r.b ≤ best.b ∧ (∀ i ∈ is, ∀ c, sahCost trs sg N i = some c → r.b ≤ c) ∧
      (r = best ∨ ∃ i, 1 ≤ i ∧ i < sg.length ∧ sahCost trs sg N i = some r.b ∧ r.ia = some (i, a)) := by
    intro is
    induction is with
    | nil => intro best _; exact ⟨le_refl _, by simp, .inl rfl⟩
    | cons i is ih =>
      intro best hi
      simp only [List.foldl_cons]
      cases hc : sahCost trs sg N i with
      | none =>
        obtain ⟨h1, h2, h3⟩ := ih best (fun j hj => hi j (by simp [hj]))
        refine ⟨h1, fun j hj c h => ?_, h3⟩
        rcases List.mem_cons.mp hj with rfl | hj
        · rw [hc] at h; cases h
        · exact h2 j hj c h
      | some c =>
        dsimp only
        by_cases hlt : c < best.b
        · rw [if_pos hlt]
          obtain ⟨h1, h2, h3⟩ := ih ⟨c, some (i, a)⟩ (fun j hj => hi j (by simp [hj]))
          refine ⟨by dsimp only at h1; linarith, fun j hj c' h => ?_, .inr ?_⟩
          · rcases List.mem_cons.mp hj with rfl | hj
            · rw [hc] at h; cases h; exact h1
            · exact h2 j hj c' h
          · rcases h3 with h3 | h3
            · exact ⟨i, (hi i (by simp)).1, (hi i (by simp)).2, by rw [h3, hc], by rw [h3]⟩
            · exact h3
        · rw [if_neg hlt]
          obtain ⟨h1, h2, h3⟩ := ih best (fun j hj => hi j (by simp [hj]))
          refine ⟨h1, fun j hj c' h => ?_, h3⟩
          rcases List.mem_cons.mp hj with rfl | hj
          · rw [hc] at h; cases h; linarith
          · exact h2 j hj c' h
  obtain ⟨h1, h2, h3⟩ := gen (List.range' 1 (sg.length - 1)) best (fun i hi => by rw [List.mem_range'_1] at hi; omega)
  exact ⟨h1, fun i c i1 i2 h => h2 i (by rw [List.mem_range'_1]; omega) c h, h3⟩

/-- The segment of an axis among three. -/
def pick (s0 s1 s2 : List ℕ) : ℕ → List ℕ
  | 0 => s0
  | 1 => s1
  | _ => s2

theorem sahBest_min (trs : ℕ → Tri) (N : ℚ) (s0 s1 s2 : List ℕ) :
    (∀ ax, ax < 3 → ∀ i c, 1 ≤ i → i < (pick s0 s1 s2 ax).length → sahCost trs (pick s0 s1 s2 ax) N i = some c → (sahBest trs N s0 s1 s2).b ≤ c) ∧
    (∀ bi ba, (sahBest trs N s0 s1 s2).ia = some (bi, ba) → ba < 3 ∧ 1 ≤ bi ∧ bi < (pick s0 s1 s2 ba).length ∧
      sahCost trs (pick s0 s1 s2 ba) N bi = some (sahBest trs N s0 s1 s2).b) := by
  unfold sahBest
  obtain ⟨a1, a2, a3⟩ := sahAxis_min trs s0 N 0 ⟨Inf, none⟩
  obtain ⟨b1, b2, b3⟩ := sahAxis_min trs s1 N 1 (sahAxis trs s0 N 0 ⟨Inf, none⟩)
  obtain ⟨c1, c2, c3⟩ := sahAxis_min trs s2 N 2 (sahAxis trs s1 N 1 (sahAxis trs s0 N 0 ⟨Inf, none⟩))
  constructor
  · intro ax hax i c h1 h2 h
    match ax, hax with
    | 0, _ => exact le_trans c1 (le_trans b1 (a2 i c h1 h2 h))
    | 1, _ => exact le_trans c1 (b2 i c h1 h2 h)
    | 2, _ => exact c2 i c h1 h2 h
  · intro bi ba h
    rcases c3 with c3 | ⟨i, h1, h2, h3, h4⟩
    · rw [c3] at h ⊢
      rcases b3 with b3 | ⟨i, h1, h2, h3, h4⟩
      · rw [b3] at h ⊢
        rcases a3 with a3 | ⟨i, h1, h2, h3, h4⟩
        · rw [a3] at h; cases h
        · rw [h4] at h; cases h; exact ⟨by omega, h1, h2, h3⟩
      · rw [h4] at h; cases h; exact ⟨by omega, h1, h2, h3⟩
    · rw [h4] at h; cases h; exact ⟨by omega, h1, h2, h3⟩

theorem Sorts.sortedBy {trs s e ax idx idx'} (h : Sorts trs s e ax idx idx') : SortedBy trs ax (seg idx' s e) :=
  h.2.2.imp fun h => not_lt.mp h

/-- With different centres the sorted order is unique. -/
theorem sorted_unique {trs : ℕ → Tri} {ax : ℕ} {l1 l2 : List ℕ} (hd : ∀ a ∈ l1, ∀ b ∈ l1, coord (trs a).c ax = coord (trs b).c ax → a = b)
    (h1 : SortedBy trs ax l1) (h2 : SortedBy trs ax l2) (hp : l1.Perm l2) : l1 = l2 :=
  hp.eq_of_pairwise (fun a b ha hb x y => hd a ha b (hp.mem_iff.mpr hb) (le_antisymm x y)) h1 h2

theorem other {A B : List Stage} {x x' y y' : Stage} {i : ℕ} (h : (A ++ x :: B)[i]? = some y) (h' : (A ++ x' :: B)[i]? = some y') :
    y = y' ∨ (x = y ∧ x' = y') := by
  rcases lt_trichotomy i A.length with hi | hi | hi
  · rw [List.getElem?_append_left hi] at h h'
    rw [h] at h'; exact .inl (by simpa using h')
  · subst hi
    simp at h h'
    exact .inr ⟨h, h'⟩
  · rw [List.getElem?_append_right (by omega)] at h h'
    obtain ⟨k, hk⟩ : ∃ k, i - A.length = k + 1 := ⟨i - A.length - 1, by omega⟩
    rw [hk] at h h'
    simp only [List.getElem?_cons_succ] at h h'
    rw [h] at h'; exact .inl (by simpa using h')

/-- What happens when a thread goes from a node with its bound to splitting it. -/
theorem split_inv {trs : ℕ → Tri} {n : ℕ} {s t : St} (hs : Step trs n s t) {i : ℕ} {E : Entry} {m : ℕ} (h : s.ths[i]? = some (.bounded E))
    (h' : t.ths[i]? = some (.split E m)) :
    ∃ i0 i1 i2 bi ba, ¬ E.e - E.s < 2 ∧ Sorts trs E.s E.e 0 s.idx i0 ∧ Sorts trs E.s E.e 1 i0 i1 ∧ Sorts trs E.s E.e 2 i1 i2 ∧
      ¬ (sahBest trs (surfaceArea (s.nodes E.i).b) (seg i0 E.s E.e) (seg i1 E.s E.e) (seg i2 E.s E.e)).b > (E.e - E.s : ℕ) ∧
      (sahBest trs (surfaceArea (s.nodes E.i).b) (seg i0 E.s E.e) (seg i1 E.s E.e) (seg i2 E.s E.e)).ia = some (bi, ba) ∧
      Sorts trs E.s E.e ba i2 t.idx ∧ m = E.s + bi := by
  have len : ∀ {A B : List Stage} {x x' : Stage} {i : ℕ} {y : Stage}, (A ++ x :: B)[i]? = some y → ∃ y', (A ++ x' :: B)[i]? = some y' := by
    intro A B x x' i y h
    have := (List.getElem?_eq_some_iff.mp h).1
    exact ⟨_, List.getElem?_eq_getElem (by simpa using this)⟩
  cases hs with
  | exit A B q nodes idx pr nn => rcases other h h' with h | ⟨h, h'⟩ <;> cases h
  | wait A B nodes idx pr nn => rcases other h h' with h | ⟨h, h'⟩ <;> cases h
  | pop A B E' q nodes idx pr nn => rcases other h h' with h | ⟨h, h'⟩ <;> cases h
  | recheck A B E' q nodes idx pr nn dn => rcases other h h' with h | ⟨h, h'⟩ <;> cases h
  | bound A B E' q nodes idx pr nn dn => rcases other h h' with h | ⟨h, h'⟩ <;> cases h
  | leaf1 A B E' q nodes idx pr nn dn h1 => rcases other h h' with h | ⟨h, h'⟩ <;> cases h; cases h'
  | leafN A B E' q nodes idx pr nn dn i0 i1 i2 g h0 h1 h2 hb => rcases other h h' with h | ⟨h, h'⟩ <;> cases h; cases h'
  | choose A B E' q nodes idx pr nn dn i0 i1 i2 i3 bi ba g h0 h1 h2 hb hi h3 =>
    rcases other h h' with h | ⟨h, h'⟩
    · cases h
    · cases h; cases h'
      exact ⟨i0, i1, i2, bi, ba, g, h0, h1, h2, hb, hi, h3, rfl⟩
  | push A B E' m' q nodes idx pr nn dn ths' hw =>
    obtain ⟨y, hy⟩ := len (x' := Stage.idle) h
    have h2 : y = .bounded E ∨ y = .idle := by
      rcases other h hy with h | ⟨_, h⟩
      · exact .inl h.symm
      · exact .inr h.symm
    rcases hw with ⟨_, rfl⟩ | ⟨a, b, e1, rfl⟩
    · rw [hy] at h'; rcases h2 with rfl | rfl <;> simp at h'
    · rw [e1] at hy
      rcases other hy h' with e | ⟨_, e⟩
      · rcases h2 with rfl | rfl <;> cases e
      · cases e
  | add A B E' q nodes idx pr nn dn => rcases other h h' with h | ⟨h, h'⟩ <;> cases h
  | chkNo A B q nodes idx pr nn dn _ => rcases other h h' with h | ⟨h, h'⟩ <;> cases h
  | chkYes A B q nodes idx pr nn dn _ =>
    obtain ⟨y, hy⟩ := len (x' := Stage.idle) h
    have h2 : y = .bounded E ∨ y = .idle := by
      rcases other h hy with h | ⟨_, h⟩
      · exact .inl h.symm
      · exact .inr h.symm
    have : (wakeAll (A ++ .idle :: B))[i]? = some (wake y) := by unfold wakeAll; rw [List.getElem?_map, hy]; rfl
    have h'' : (wakeAll (A ++ .idle :: B))[i]? = some (.split E m) := h'
    rw [this] at h''
    rcases h2 with rfl | rfl <;> simp [wake] at h''

/-- C83 (partial). Whenever, in any interleaving, a builder thread splits a node of at least two triangles whose centres differ along every axis: the cost of the
    pair of children, by the surface area heuristic, is the least among all splits of the node's triangles at any position in their order along any
    axis, and at most the cost of a leaf. Missing: triangles with equal centre coordinates (C83_negation_ties). -/
theorem C83_split_minimal_partial (trs : ℕ → Tri) (n : ℕ) (s t : St) (hs : Step trs n s t) (i : ℕ) (E : Entry) (m : ℕ)
    (h : s.ths[i]? = some (.bounded E)) (h' : t.ths[i]? = some (.split E m))
    (hr : ∀ k ∈ seg s.idx E.s E.e, InRange (trs k).b)
    (hd : ∀ ax, ax < 3 → ∀ a ∈ seg s.idx E.s E.e, ∀ b ∈ seg s.idx E.s E.e, coord (trs a).c ax = coord (trs b).c ax → a = b) :
    ∃ c, SplitCost trs (seg t.idx E.s m) (seg t.idx m E.e) (surfaceArea (s.nodes E.i).b) c ∧ c ≤ (E.e - E.s : ℕ) ∧
      ∀ ax, ax < 3 → ∀ sg : List ℕ, sg.Perm (seg s.idx E.s E.e) → SortedBy trs ax sg → ∀ k, 1 ≤ k → k < sg.length →
        ∀ c', SplitCost trs (sg.take k) (sg.drop k) (surfaceArea (s.nodes E.i).b) c' → c ≤ c' := by
  obtain ⟨i0, i1, i2, bi, ba, g, h0, h1, h2, hb, hi, h3, rfl⟩ := split_inv hs h h'
  have p0 := h0.2.1
  have p1 := h1.2.1.trans p0
  have p2 := h2.2.1.trans p1
  have p3 := h3.2.1.trans p2
  have pp : ∀ ax, ax < 3 → (pick (seg i0 E.s E.e) (seg i1 E.s E.e) (seg i2 E.s E.e) ax).Perm (seg s.idx E.s E.e) ∧
      SortedBy trs ax (pick (seg i0 E.s E.e) (seg i1 E.s E.e) (seg i2 E.s E.e) ax) := by
    intro ax hax
    match ax, hax with
    | 0, _ => exact ⟨p0, h0.sortedBy⟩
    | 1, _ => exact ⟨p1, h1.sortedBy⟩
    | 2, _ => exact ⟨p2, h2.sortedBy⟩
  obtain ⟨hmin, hch⟩ := sahBest_min trs (surfaceArea (s.nodes E.i).b) (seg i0 E.s E.e) (seg i1 E.s E.e) (seg i2 E.s E.e)
  obtain ⟨ha, b1, b2, hc⟩ := hch bi ba hi
  set N := surfaceArea (s.nodes E.i).b with hNdef
  set best := sahBest trs N (seg i0 E.s E.e) (seg i1 E.s E.e) (seg i2 E.s E.e) with hbest
  have hN : N ≠ 0 := by
    intro h; unfold sahCost at hc; rw [if_pos h] at hc; cases hc
  have hsame : pick (seg i0 E.s E.e) (seg i1 E.s E.e) (seg i2 E.s E.e) ba = seg t.idx E.s E.e := by
    refine sorted_unique (trs := trs) (ax := ba) ?_ (pp ba ha).2 h3.sortedBy ((pp ba ha).1.trans p3.symm)
    intro a ha' b hb' he
    exact hd ba ha a ((pp ba ha).1.mem_iff.mp ha') b ((pp ba ha).1.mem_iff.mp hb') he
  rw [hsame] at hc b2
  obtain ⟨c, hc1, hc2⟩ := sahCost_split trs (seg t.idx E.s E.e) N hN bi b1 b2 (fun k hk => hr k (p3.mem_iff.mp hk))
  rw [hc] at hc1; cases hc1
  rw [seg_length] at b2
  have e1 : seg t.idx E.s E.e = seg t.idx E.s (E.s + bi) ++ seg t.idx (E.s + bi) E.e := seg_append t.idx (by omega) (by omega)
  have l1 : (seg t.idx E.s (E.s + bi)).length = bi := by rw [seg_length]; omega
  rw [e1, List.take_left' l1, List.drop_left' l1] at hc2
  refine ⟨best.b, hc2, not_lt.mp hb, ?_⟩
  intro ax hax sg hp hso k k1 k2 c' hc'
  have hsg : pick (seg i0 E.s E.e) (seg i1 E.s E.e) (seg i2 E.s E.e) ax = sg := by
    refine sorted_unique (trs := trs) (ax := ax) ?_ (pp ax hax).2 hso ((pp ax hax).1.trans hp.symm)
    intro a ha' b hb' he
    exact hd ax hax a ((pp ax hax).1.mem_iff.mp ha') b ((pp ax hax).1.mem_iff.mp hb') he
  obtain ⟨c'', h1', h2'⟩ := sahCost_split trs sg N hN k k1 k2 (fun j hj => hr j (hp.mem_iff.mp hj))
  rw [splitCost_unique hc' h2']
  exact hmin ax hax k c'' k1 (by rw [hsg]; exact k2) (by rw [hsg]; exact h1')

/-- What happens when a thread makes a node with its bound a leaf. -/
theorem leaf_inv {trs : ℕ → Tri} {n : ℕ} {s t : St} (hs : Step trs n s t) {i : ℕ} {E : Entry} (h : s.ths[i]? = some (.bounded E))
    (h' : t.ths[i]? = some (.leafAdd E)) (h2 : 2 ≤ E.e - E.s) :
    ∃ i0 i1 i2, Sorts trs E.s E.e 0 s.idx i0 ∧ Sorts trs E.s E.e 1 i0 i1 ∧ Sorts trs E.s E.e 2 i1 i2 ∧
      (sahBest trs (surfaceArea (s.nodes E.i).b) (seg i0 E.s E.e) (seg i1 E.s E.e) (seg i2 E.s E.e)).b > (E.e - E.s : ℕ) := by
  have len : ∀ {A B : List Stage} {x x' : Stage} {i : ℕ} {y : Stage}, (A ++ x :: B)[i]? = some y → ∃ y', (A ++ x' :: B)[i]? = some y' := by
    intro A B x x' i y h
    have := (List.getElem?_eq_some_iff.mp h).1
    exact ⟨_, List.getElem?_eq_getElem (by simpa using this)⟩
  cases hs with
  | exit A B q nodes idx pr nn => rcases other h h' with h | ⟨h, h'⟩ <;> cases h
  | wait A B nodes idx pr nn => rcases other h h' with h | ⟨h, h'⟩ <;> cases h
  | pop A B E' q nodes idx pr nn => rcases other h h' with h | ⟨h, h'⟩ <;> cases h
  | recheck A B E' q nodes idx pr nn dn => rcases other h h' with h | ⟨h, h'⟩ <;> cases h
  | bound A B E' q nodes idx pr nn dn => rcases other h h' with h | ⟨h, h'⟩ <;> cases h
  | leaf1 A B E' q nodes idx pr nn dn h1 =>
    rcases other h h' with h | ⟨h, h'⟩
    · cases h
    · cases h; omega
  | leafN A B E' q nodes idx pr nn dn i0 i1 i2 g h0 h1 h2 hb =>
    rcases other h h' with h | ⟨h, h'⟩
    · cases h
    · cases h; exact ⟨i0, i1, i2, h0, h1, h2, hb⟩
  | choose A B E' q nodes idx pr nn dn i0 i1 i2 i3 bi ba g h0 h1 h2 hb hi h3 =>
    rcases other h h' with h | ⟨h, h'⟩
    · cases h
    · cases h; cases h'
  | push A B E' m' q nodes idx pr nn dn ths' hw =>
    obtain ⟨y, hy⟩ := len (x' := Stage.idle) h
    have h2 : y = .bounded E ∨ y = .idle := by
      rcases other h hy with h | ⟨_, h⟩
      · exact .inl h.symm
      · exact .inr h.symm
    rcases hw with ⟨_, rfl⟩ | ⟨a, b, e1, rfl⟩
    · rw [hy] at h'; rcases h2 with rfl | rfl <;> simp at h'
    · rw [e1] at hy
      rcases other hy h' with e | ⟨_, e⟩
      · rcases h2 with rfl | rfl <;> cases e
      · cases e
  | add A B E' q nodes idx pr nn dn => rcases other h h' with h | ⟨h, h'⟩ <;> cases h
  | chkNo A B q nodes idx pr nn dn _ => rcases other h h' with h | ⟨h, h'⟩ <;> cases h
  | chkYes A B q nodes idx pr nn dn _ =>
    obtain ⟨y, hy⟩ := len (x' := Stage.idle) h
    have h2 : y = .bounded E ∨ y = .idle := by
      rcases other h hy with h | ⟨_, h⟩
      · exact .inl h.symm
      · exact .inr h.symm
    have : (wakeAll (A ++ .idle :: B))[i]? = some (wake y) := by unfold wakeAll; rw [List.getElem?_map, hy]; rfl
    have h'' : (wakeAll (A ++ .idle :: B))[i]? = some (.leafAdd E) := h'
    rw [this] at h''
    rcases h2 with rfl | rfl <;> simp [wake] at h''

/-- C83. With any centres: whenever a builder thread makes a leaf of two or more triangles, in a node of non-zero area, there is an order of the triangles along
    each axis such that every split at any position of that order would cost more than the leaf. -/
theorem C83_leaf_ties (trs : ℕ → Tri) (n : ℕ) (s t : St) (hs : Step trs n s t) (i : ℕ) (E : Entry)
    (h : s.ths[i]? = some (.bounded E)) (h' : t.ths[i]? = some (.leafAdd E)) (h2 : 2 ≤ E.e - E.s) (hN : surfaceArea (s.nodes E.i).b ≠ 0)
    (hr : ∀ k ∈ seg s.idx E.s E.e, InRange (trs k).b) :
    ∀ ax, ax < 3 → ∃ sg : List ℕ, sg.Perm (seg s.idx E.s E.e) ∧ SortedBy trs ax sg ∧ ∀ k, 1 ≤ k → k < sg.length →
      ∀ c, SplitCost trs (sg.take k) (sg.drop k) (surfaceArea (s.nodes E.i).b) c → (E.e - E.s : ℕ) < c := by
  obtain ⟨i0, i1, i2, h0, h1, h2, hb⟩ := leaf_inv hs h h' h2
  have p0 := h0.2.1
  have p1 := h1.2.1.trans p0
  have p2 := h2.2.1.trans p1
  have pp : ∀ ax, ax < 3 → (pick (seg i0 E.s E.e) (seg i1 E.s E.e) (seg i2 E.s E.e) ax).Perm (seg s.idx E.s E.e) ∧
      SortedBy trs ax (pick (seg i0 E.s E.e) (seg i1 E.s E.e) (seg i2 E.s E.e) ax) := by
    intro ax hax
    match ax, hax with
    | 0, _ => exact ⟨p0, h0.sortedBy⟩
    | 1, _ => exact ⟨p1, h1.sortedBy⟩
    | 2, _ => exact ⟨p2, h2.sortedBy⟩
  obtain ⟨hmin, -⟩ := sahBest_min trs (surfaceArea (s.nodes E.i).b) (seg i0 E.s E.e) (seg i1 E.s E.e) (seg i2 E.s E.e)
  intro ax hax
  refine ⟨_, (pp ax hax).1, (pp ax hax).2, ?_⟩
  intro k k1 k2 c hc
  obtain ⟨c'', h1', h2'⟩ := sahCost_split trs _ _ hN k k1 k2 (fun j hj => hr j ((pp ax hax).1.mem_iff.mp hj))
  rw [splitCost_unique hc h2']
  exact lt_of_lt_of_le hb (hmin ax hax k c'' k1 k2 h1')

/-- C83 (partial). Whenever a builder thread makes a leaf of two or more triangles whose centres differ along every axis, in a node of non-zero area,
    every split of them would cost more than the leaf. Missing: triangles with equal centre coordinates, for which one of their orders along each axis is
    looked at (C83_leaf_ties), and nodes of area zero, for which the code divides by zero. -/
theorem C83_leaf_partial (trs : ℕ → Tri) (n : ℕ) (s t : St) (hs : Step trs n s t) (i : ℕ) (E : Entry)
    (h : s.ths[i]? = some (.bounded E)) (h' : t.ths[i]? = some (.leafAdd E)) (h2 : 2 ≤ E.e - E.s) (hN : surfaceArea (s.nodes E.i).b ≠ 0)
    (hr : ∀ k ∈ seg s.idx E.s E.e, InRange (trs k).b)
    (hd : ∀ ax, ax < 3 → ∀ a ∈ seg s.idx E.s E.e, ∀ b ∈ seg s.idx E.s E.e, coord (trs a).c ax = coord (trs b).c ax → a = b) :
    ∀ ax, ax < 3 → ∀ sg : List ℕ, sg.Perm (seg s.idx E.s E.e) → SortedBy trs ax sg → ∀ k, 1 ≤ k → k < sg.length →
      ∀ c, SplitCost trs (sg.take k) (sg.drop k) (surfaceArea (s.nodes E.i).b) c → (E.e - E.s : ℕ) < c := by
  obtain ⟨i0, i1, i2, h0, h1, h2, hb⟩ := leaf_inv hs h h' h2
  have p0 := h0.2.1
  have p1 := h1.2.1.trans p0
  have p2 := h2.2.1.trans p1
  have pp : ∀ ax, ax < 3 → (pick (seg i0 E.s E.e) (seg i1 E.s E.e) (seg i2 E.s E.e) ax).Perm (seg s.idx E.s E.e) ∧
      SortedBy trs ax (pick (seg i0 E.s E.e) (seg i1 E.s E.e) (seg i2 E.s E.e) ax) := by
    intro ax hax
    match ax, hax with
    | 0, _ => exact ⟨p0, h0.sortedBy⟩
    | 1, _ => exact ⟨p1, h1.sortedBy⟩
    | 2, _ => exact ⟨p2, h2.sortedBy⟩
  obtain ⟨hmin, -⟩ := sahBest_min trs (surfaceArea (s.nodes E.i).b) (seg i0 E.s E.e) (seg i1 E.s E.e) (seg i2 E.s E.e)
  intro ax hax sg hp hso k k1 k2 c hc
  have hsg : pick (seg i0 E.s E.e) (seg i1 E.s E.e) (seg i2 E.s E.e) ax = sg := by
    refine sorted_unique (trs := trs) (ax := ax) ?_ (pp ax hax).2 hso ((pp ax hax).1.trans hp.symm)
    intro a ha' b hb' he
    exact hd ax hax a ((pp ax hax).1.mem_iff.mp ha') b ((pp ax hax).1.mem_iff.mp hb') he
  obtain ⟨c'', h1', h2'⟩ := sahCost_split trs sg _ hN k k1 k2 (fun j hj => hr j (hp.mem_iff.mp hj))
  rw [splitCost_unique hc h2']
  exact lt_of_lt_of_le hb (hmin ax hax k c'' k1 (by rw [hsg]; exact k2) (by rw [hsg]; exact h1'))

/-! ### Equal centres -/

/-- A triangle of size 2 at (x, y, 0). -/
def tieTri (x y : ℚ) : Tri := Tri.mk' ⟨x, y, 0⟩ ⟨x + 2, y, 0⟩ ⟨x, y + 2, 2⟩
/-- Three triangles, the first two above each other. -/
def tieTrs : ℕ → Tri
  | 0 => tieTri 0 100
  | 1 => tieTri 0 0
  | _ => tieTri 4 0

/-- Sorted along y and z. -/
def tieYZ : ℕ → ℕ
  | 0 => 1
  | 1 => 2
  | 2 => 0
  | j => j
/-- Sorted along x after y and z; triangles with equal centres keep their order. -/
def tieX : ℕ → ℕ
  | 0 => 1
  | 1 => 0
  | j => j

def tieNode : Node := { Node.init with b := rangeBound tieTrs id 0 3 dflt }
def tieS : St := ⟨[], setNode (fun _ => Node.init) 0 tieNode, id, 0, 1, false, [.bounded ⟨0, 0, 3⟩]⟩
def tieT : St := ⟨[], setNode (fun _ => Node.init) 0 tieNode, tieX, 0, 1, false, [.split ⟨0, 0, 3⟩ 1]⟩

theorem tie_reach : Reach tieTrs 3 1 tieS := by
  have r0 : Reach tieTrs 3 1 (St.init 3 1) := .init
  have r1 := Reach.step _ _ r0 (.pop [] [] ⟨0, 0, 3⟩ [] _ _ 0 1)
  have r2 := Reach.step _ _ r1 (.recheck [] [] ⟨0, 0, 3⟩ [] _ _ 0 1 false)
  exact Reach.step _ _ r2 (.bound [] [] ⟨0, 0, 3⟩ [] _ _ 0 1 false)

theorem tie_step : Step tieTrs 3 tieS tieT := by
  refine Step.choose [] [] ⟨0, 0, 3⟩ [] _ id 0 1 false id tieYZ tieYZ tieX 1 0 (by decide) ⟨fun j _ => rfl, List.Perm.refl _, ?_⟩
    ⟨?_, ?_, ?_⟩ ⟨fun _ _ => rfl, List.Perm.refl _, ?_⟩ ?_ ?_ ⟨?_, ?_, ?_⟩
  · decide +kernel
  · intro j hj; match j, hj with
    | 0, h => exact absurd ⟨Nat.le_refl 0, by decide⟩ h
    | 1, h => exact absurd ⟨Nat.zero_le 1, by decide⟩ h
    | 2, h => exact absurd ⟨Nat.zero_le 2, by decide⟩ h
    | j + 3, _ => rfl
  · decide +kernel
  · decide +kernel
  · decide +kernel
  · decide +kernel
  · decide +kernel
  · intro j hj; match j, hj with
    | 0, h => exact absurd ⟨Nat.le_refl 0, by decide⟩ h
    | 1, h => exact absurd ⟨Nat.zero_le 1, by decide⟩ h
    | 2, h => exact absurd ⟨Nat.zero_le 2, by decide⟩ h
    | j + 3, _ => rfl
  · decide +kernel
  · decide +kernel

theorem tie_inRange : ∀ k, InRange (tieTrs k).b := by
  intro k
  match k with
  | 0 => unfold InRange; decide +kernel
  | 1 => unfold InRange; decide +kernel
  | k + 2 =>
    show InRange (tieTri 4 0).b
    unfold InRange; decide +kernel

/-- C83, negation. The triangles are sorted once more before they are split, and triangles with equal centres may come in another order than
    the one the cost was computed for. Three triangles, the first above the second, the third beside the second; one thread, and sorting that keeps the order of equal
    elements. The builder reaches a state in which it splits into {1} and {0, 2}, at a cost above that of a leaf, while the split {0}, {1, 2} it
    chose costs less than half of it. -/
theorem C83_negation_ties : ∃ (trs : ℕ → Tri) (s t : St) (E : Entry) (m : ℕ), (∀ k, InRange (trs k).b) ∧ Reach trs 3 1 s ∧ Step trs 3 s t ∧
    s.ths[0]? = some (.bounded E) ∧ t.ths[0]? = some (.split E m) ∧ E.s = 0 ∧ E.e = 3 ∧
    ∃ c c', SplitCost trs (seg t.idx E.s m) (seg t.idx m E.e) (surfaceArea (s.nodes E.i).b) c ∧
      SplitCost trs [0] [1, 2] (surfaceArea (s.nodes E.i).b) c' ∧ SortedBy trs 0 [0, 1, 2] ∧ 3 < c ∧ 2 * c' < c := by
  refine ⟨tieTrs, tieS, tieT, ⟨0, 0, 3⟩, 1, tie_inRange, tie_reach, tie_step, rfl, rfl, rfl, rfl, ?_⟩
  have hseg1 : seg tieT.idx 0 1 = [1] := by decide
  have hseg2 : seg tieT.idx 1 3 = [0, 2] := by decide
  refine ⟨_, _, ⟨surfaceArea ([1].foldl (fun b i => merge b (tieTrs i).b) dflt), surfaceArea ([0, 2].foldl (fun b i => merge b (tieTrs i).b) dflt), ?_, ?_, rfl⟩,
    ⟨_, _, area_hull tieTrs [0] (by simp) (fun k _ => tie_inRange k), area_hull tieTrs [1, 2] (by simp) (fun k _ => tie_inRange k), rfl⟩, ?_, ?_, ?_⟩
  · show HullArea (List.map _ (seg tieT.idx 0 1)) _
    rw [hseg1]; exact area_hull tieTrs [1] (by simp) (fun k _ => tie_inRange k)
  · show HullArea (List.map _ (seg tieT.idx 1 3)) _
    rw [hseg2]; exact area_hull tieTrs [0, 2] (by simp) (fun k _ => tie_inRange k)
  · unfold SortedBy; decide +kernel
  · decide +kernel
  · decide +kernel

/-! ### Non-vacuity -/

/-- Two triangles with different centres. -/
def farTrs : ℕ → Tri
  | 0 => Tri.mk' ⟨0, 0, 0⟩ ⟨2, 0, 0⟩ ⟨0, 2, 2⟩
  | _ => Tri.mk' ⟨10, 20, 30⟩ ⟨12, 20, 30⟩ ⟨10, 22, 32⟩
def farNode : Node := { Node.init with b := rangeBound farTrs id 0 2 dflt }
def farS : St := ⟨[], setNode (fun _ => Node.init) 0 farNode, id, 0, 1, false, [.bounded ⟨0, 0, 2⟩]⟩
def farT : St := ⟨[], setNode (fun _ => Node.init) 0 farNode, id, 0, 1, false, [.split ⟨0, 0, 2⟩ 1]⟩

/-- The hypotheses of C83_split_minimal_partial are met by a reachable step. -/
example : Reach farTrs 2 1 farS ∧ Step farTrs 2 farS farT ∧ farS.ths[0]? = some (.bounded ⟨0, 0, 2⟩) ∧ farT.ths[0]? = some (.split ⟨0, 0, 2⟩ 1) ∧
    (∀ k ∈ seg farS.idx 0 2, InRange (farTrs k).b) ∧
    (∀ ax, ax < 3 → ∀ a ∈ seg farS.idx 0 2, ∀ b ∈ seg farS.idx 0 2, coord (farTrs a).c ax = coord (farTrs b).c ax → a = b) := by
  refine ⟨?_, ?_, rfl, rfl, ?_, ?_⟩
  · have r0 : Reach farTrs 2 1 (St.init 2 1) := .init
    have r1 := Reach.step _ _ r0 (.pop [] [] ⟨0, 0, 2⟩ [] _ _ 0 1)
    have r2 := Reach.step _ _ r1 (.recheck [] [] ⟨0, 0, 2⟩ [] _ _ 0 1 false)
    exact Reach.step _ _ r2 (.bound [] [] ⟨0, 0, 2⟩ [] _ _ 0 1 false)
  · refine Step.choose [] [] ⟨0, 0, 2⟩ [] _ id 0 1 false id id id id 1 0 (by decide) ⟨fun j _ => rfl, List.Perm.refl _, ?_⟩
      ⟨fun j _ => rfl, List.Perm.refl _, ?_⟩ ⟨fun j _ => rfl, List.Perm.refl _, ?_⟩ ?_ ?_ ⟨fun j _ => rfl, List.Perm.refl _, ?_⟩ <;> decide +kernel
  · unfold InRange; decide +kernel
  · decide +kernel

end LM.Bvh
