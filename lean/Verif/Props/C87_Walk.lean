import Verif.Model.BidirRender
import Verif.Props.C87_Step
/-
  C87: the law of the eye subpath.
-/
namespace LM.Transport
open MeasureTheory LM LM.Surface LM.Material LM.Light LM.MathF LM.Path LM.Render LM.Solid LM.Chain Set
open scoped ENNReal

/-! ### Which random numbers are used -/

/-- An average does not depend on the numbers that the function does not look at. -/
theorem average_local (I : ℕ → Prop) {f : (ℕ → Rnd) → ℝ≥0∞} (hf : ∀ a b, (∀ j, I j → a j = b j) → f a = f b) (k nv : ℕ) {a b : ℕ → Rnd} (h : ∀ j, I j → a j = b j) : average k nv a f = average k nv b f := by
  induction k generalizing nv a b with
  | zero => exact hf a b h
  | succ k ih =>
    simp only [average]
    congr 1
    funext r
    refine ih (nv + 1) fun j hj => ?_
    by_cases e : j = nv
    · rw [e, Function.update_self, Function.update_self]
    · rw [Function.update_of_ne e, Function.update_of_ne e]; exact h j hj

theorem subpathRay_length {W : World} {dir : TransDir} {vs vs' : List Vert} {r : Rnd} {o d : V3 ℝ} (h : subpathRay W dir vs r = .ray vs' o d) : vs.length ≤ vs'.length := by
  unfold subpathRay at h
  split_ifs at h with h0
  · omega
  · revert h
    split
    · simp
    · split
      · simp
      · split <;> intro h <;> simp_all

theorem subpathLoop_local (W : World) (Q : Query) (N : ℤ) (dir : TransDir) (k : ℕ) (vs : List Vert) (a b : ℕ → Rnd) (h : ∀ j, vs.length ≤ j → a j = b j) : subpathLoop W Q N dir a k vs = subpathLoop W Q N dir b k vs := by
  induction k generalizing vs with
  | zero => rfl
  | succ k ih =>
    simp only [subpathLoop]
    rw [h vs.length le_rfl]
    split_ifs
    · cases e : subpathRay W dir vs (b vs.length) with
      | undef => rfl
      | stop => rfl
      | ray vs' o d =>
        have hl := subpathRay_length e
        dsimp only
        cases Q.isect o d with
        | none => rfl
        | some hit =>
          dsimp only
          cases sampleComponent W (b vs.length).comp hit (-d) with
          | none => rfl
          | some c =>
            dsimp only
            rw [ih _ fun j hj => h j (by simp at hj; omega)]
    · rfl

namespace Site
variable {S : Site} {W : World} {n : Int} {cam : Camera} {mat : Int → Mat} {O : ℝ≥0∞}

/-- The value of what the walk returns; O if it is undefined. -/
noncomputable def valued (O : ℝ≥0∞) (F : List Vert → ℝ≥0∞) : Option (List Vert) → ℝ≥0∞
  | none => O
  | some l => F l

/-! ### Going on from a point of a surface -/

theorem toVert_finite (h : S.Sound) (y : Node) : (S.vertex y.1.1 y.1.2).geom.infinite = false := (h.faceted.at_point y.1.1 y.1.2).2.2.1

/-- One iteration from a point of a surface. -/
theorem loop_step (h : S.Sound) {N : ℤ} {dir : TransDir} {rs : ℕ → Rnd} {k : ℕ} {pre : List Vert} {u : Vert} {w : V3 ℝ} {x : Node} (hu : u.sp.geom.infinite = false) (hup : u.sp.geom.p = w) (hw : S.Hop w x.1)
    (hN : ((pre ++ [u, S.toVert x]).length : ℤ) < N) (F : List Vert → ℝ≥0∞) :
    valued O F (subpathLoop W S.Q N dir rs (k + 1) (pre ++ [u, S.toVert x])) =
      goOn O W S.Q (F (pre ++ [u, S.toVert x])) (fun v => if v.sp.geom.infinite then F (pre ++ [u, S.toVert x] ++ [v]) else valued O F (subpathLoop W S.Q N dir rs k (pre ++ [u, S.toVert x] ++ [v])))
        x.1.2 (rs (pre.length + 2)).comp (sampleDirection W (rs (pre.length + 2)).dir (S.vertex x.1.1 x.1.2) (dirOf (w - x.1.2)) x.2 dir) := by
  set vs := pre ++ [u, S.toVert x] with hvs
  have hlen : vs.length = pre.length + 2 := by simp [hvs]
  have e1 : subpathVertexAt vs ((vs.length : Int) - 1) = some (S.toVert x) := by
    unfold subpathVertexAt
    rw [hlen, if_pos (by push_cast; omega), show ((pre.length + 2 : ℕ) : ℤ) - 1 = ((pre.length + 1 : ℕ) : ℤ) by push_cast; ring, Int.toNat_natCast, hvs, List.getElem?_append_right (by omega)]
    simp
  have e2 : subpathVertexAt vs ((vs.length : Int) - 2) = some u := by
    unfold subpathVertexAt
    rw [hlen, if_pos (by push_cast; omega), show ((pre.length + 2 : ℕ) : ℤ) - 2 = ((pre.length : ℕ) : ℤ) by push_cast; ring, Int.toNat_natCast, hvs, List.getElem?_append_right (by omega)]
    simp
  have hp : (S.vertex x.1.1 x.1.2).geom.p = x.1.2 := (h.faceted.at_point x.1.1 x.1.2).2.1
  have e3 : direction (some (S.toVert x)) (some u) = some (dirOf (w - x.1.2)) := by
    rw [direction_of (toVert_finite h x) hu]
    · show some (dirOf (u.sp.geom.p - (S.vertex x.1.1 x.1.2).geom.p)) = _
      rw [hup, hp]
    · show (S.vertex x.1.1 x.1.2).geom.p ≠ u.sp.geom.p
      rw [hup, hp]
      exact hw.1.symm
  rw [subpathLoop, if_pos hN]
  unfold subpathRay
  rw [if_neg (by omega), e1, e2]
  dsimp only
  rw [e3]
  dsimp only
  rw [hlen]
  show valued O F _ = goOn O W S.Q (F vs) _ _ _ (sampleDirection W (rs (pre.length + 2)).dir (S.toVert x).sp (dirOf (w - x.1.2)) (S.toVert x).comp dir)
  cases sampleDirection W (rs (pre.length + 2)).dir (S.toVert x).sp (dirOf (w - x.1.2)) (S.toVert x).comp dir with
  | undef => rfl
  | fail => rfl
  | ok wo c =>
    dsimp only [goOn]
    unfold Site.arrive
    have e4 : (S.toVert x).sp.geom.p = x.1.2 := hp
    rw [e4]
    cases S.Q.isect x.1.2 wo with
    | none => rfl
    | some hit =>
      dsimp only
      cases sampleComponent W (rs (pre.length + 2)).comp hit (-wo) with
      | none => rfl
      | some c =>
        dsimp only
        split_ifs <;> rfl

/-- What is still to come, in the mean. -/
noncomputable def rest (S : Site) (Ψ : List Node → ℝ≥0∞) (m : ℕ) (w : V3 ℝ) (x : Node) : ℝ≥0∞ := ∑ k ∈ Finset.range (m + 1), ∫⁻ l, S.lks w x l * Ψ l ∂paths S.area k

theorem rest_succ (h : S.Sound) {Ψ : List Node → ℝ≥0∞} (hΨ : Measurable Ψ) (m : ℕ) (w : V3 ℝ) (x : Node) : S.rest Ψ (m + 1) w x = Ψ [] + ∫⁻ y, S.lk w x y * S.rest (fun l => Ψ (y :: l)) m x.1.2 y ∂S.area := by
  have hm : Measurable fun l => S.lks w x l * Ψ l := (h.m_lks measurable_const measurable_const measurable_id).mul hΨ
  have hc : Measurable fun q : Node × List Node => Ψ (q.1 :: q.2) := hΨ.comp measurable_cons
  have hk : Measurable fun q : Node × List Node => S.lks x.1.2 q.1 q.2 := h.m_lks measurable_const measurable_fst measurable_snd
  have hlk : Measurable fun y => S.lk w x y := h.m_lk measurable_const measurable_const measurable_id
  unfold rest
  rw [Finset.sum_range_succ', lintegral_nil S.area _ hm, add_comm]
  congr 1
  · simp [lks]
  · simp_rw [Finset.mul_sum]
    have hmk : ∀ k, Measurable fun y => S.lk w x y * ∫⁻ l, S.lks x.1.2 y l * Ψ (y :: l) ∂paths S.area k := fun k => hlk.mul (hk.mul hc).lintegral_prod_right'
    rw [lintegral_finsetSum _ fun k _ => hmk k]
    refine Finset.sum_congr rfl fun k _ => ?_
    rw [lintegral_cons S.area hm]
    refine lintegral_congr fun y => ?_
    have hy : Measurable fun l => S.lks x.1.2 y l * Ψ (y :: l) := (hk.mul hc).comp measurable_prodMk_left
    rw [← lintegral_const_mul _ hy]
    refine lintegral_congr fun l => ?_
    simp only [lks]
    ring

theorem measurable_rest (h : S.Sound) {α : Type} [MeasurableSpace α] {Ψ : α → List Node → ℝ≥0∞} (hΨ : Measurable fun q : α × List Node => Ψ q.1 q.2) (m : ℕ) {w : α → V3 ℝ} {x : α → Node} (hw : Measurable w) (hx : Measurable x) : Measurable fun a => S.rest (Ψ a) m (w a) (x a) := by
  unfold rest
  refine Finset.measurable_fun_sum _ fun k _ => ?_
  have : Measurable fun q : α × List Node => S.lks (w q.1) (x q.1) q.2 * Ψ q.1 q.2 := (h.m_lks (hw.comp measurable_fst) (hx.comp measurable_fst) measurable_snd).mul hΨ
  exact this.lintegral_prod_right'

/-- The walk from a point of a surface, to at most m more points. -/
theorem Works.walk (h : S.Sound) (R : S.Works W n cam mat) {G : Spot → Prop} (hG : ∀ᵐ x ∂surf S.Fs, G x) {N : ℤ} {dir : TransDir} (m : ℕ) : ∀ (pre : List Vert) (u : Vert) (w : V3 ℝ) (x : Node), u.sp.geom.infinite = false → u.sp.geom.p = w → S.Hop w x.1 → S.Fit x →
    (pre.length : ℤ) + 2 + m = N → ∀ (k : ℕ), m ≤ k → ∀ (F : List Vert → ℝ≥0∞) (K : ℝ≥0∞) (Ψ : List Node → ℝ≥0∞), Measurable Ψ →
    (∀ l, S.Good G w x l → F (pre ++ [u, S.toVert x] ++ l.map S.toVert) = K + ∑ j ∈ Finset.range (l.length + 1), Ψ (l.take j)) → ∀ rs,
    average m (pre.length + 2) rs (fun rs' => valued O F (subpathLoop W S.Q N dir rs' k (pre ++ [u, S.toVert x]))) = K + S.rest Ψ m w x := by
  induction m with
  | zero =>
    intro pre u w x hu hup hw hx hN k hk F K Ψ hΨ hF rs
    have hm : Measurable fun l => S.lks w x l * Ψ l := (h.m_lks measurable_const measurable_const measurable_id).mul hΨ
    have hv : valued O F (subpathLoop W S.Q N dir rs k (pre ++ [u, S.toVert x])) = F (pre ++ [u, S.toVert x]) := by
      cases k with
      | zero => rfl
      | succ k => rw [subpathLoop, if_neg (by simp; omega)]; rfl
    simp only [average, hv, rest]
    have := hF [] trivial
    simp only [List.map_nil, List.append_nil, List.length_nil, zero_add, Finset.sum_range_one, List.take_nil] at this
    rw [this, zero_add, Finset.sum_range_one, lintegral_nil S.area _ hm]
    simp [lks]
  | succ m ih =>
    intro pre u w x hu hup hw hx hN k hk F K Ψ hΨ hF rs
    obtain ⟨k, rfl⟩ : ∃ k', k = k' + 1 := ⟨k - 1, by omega⟩
    have hlt : ((pre ++ [u, S.toVert x]).length : ℤ) < N := by simp; omega
    have hbase : F (pre ++ [u, S.toVert x]) = K + Ψ [] := by
      have := hF [] trivial
      simpa using this
    rw [rest_succ h hΨ]
    simp only [average]
    -- the value of a vertex
    set V : Vert → ℝ≥0∞ := fun v => average m (pre.length + 3) rs fun rs' => if v.sp.geom.infinite then F (pre ++ [u, S.toVert x] ++ [v]) else valued O F (subpathLoop W S.Q N dir rs' k (pre ++ [u, S.toVert x] ++ [v])) with hVd
    have hinner : ∀ r : Rnd, average m (pre.length + 2 + 1) (Function.update rs (pre.length + 2) r) (fun rs' => valued O F (subpathLoop W S.Q N dir rs' (k + 1) (pre ++ [u, S.toVert x]))) =
        goOn O W S.Q (K + Ψ []) V x.1.2 r.comp (sampleDirection W r.dir (S.vertex x.1.1 x.1.2) (dirOf (w - x.1.2)) x.2 dir) := fun r => by
      have e : ∀ rs', (∀ j < pre.length + 2 + 1, rs' j = Function.update rs (pre.length + 2) r j) → valued O F (subpathLoop W S.Q N dir rs' (k + 1) (pre ++ [u, S.toVert x])) =
          goOn O W S.Q (K + Ψ []) (fun v => if v.sp.geom.infinite then F (pre ++ [u, S.toVert x] ++ [v]) else valued O F (subpathLoop W S.Q N dir rs' k (pre ++ [u, S.toVert x] ++ [v])))
            x.1.2 r.comp (sampleDirection W r.dir (S.vertex x.1.1 x.1.2) (dirOf (w - x.1.2)) x.2 dir) := fun rs' hrs => by
        rw [loop_step h hu hup hw hlt F, hrs _ (Nat.lt_succ_self _), Function.update_self, hbase]
      rw [average_congr _ _ _ _ _ e]
      cases sampleDirection W r.dir (S.vertex x.1.1 x.1.2) (dirOf (w - x.1.2)) x.2 dir with
      | undef => simp only [goOn]; rw [average_const]
      | fail => simp only [goOn]; rw [average_const]
      | ok d C =>
        simp only [goOn]
        unfold Site.arrive
        cases S.Q.isect x.1.2 d with
        | none => simp only; rw [average_const]
        | some hit =>
          dsimp only
          cases sampleComponent W r.comp hit (-d) with
          | none => simp only; rw [average_const]
          | some c =>
            dsimp only
            rw [hVd]
            dsimp only
            refine average_local (fun j => pre.length + 3 ≤ j) (fun a b hab => ?_) _ _ fun j hj => ?_
            · rw [subpathLoop_local W S.Q N dir k _ a b fun j hj => hab j (by simp at hj; omega)]
            · rw [Function.update_of_ne (by omega)]
    rw [show (fun r => average m (pre.length + 2 + 1) (Function.update rs (pre.length + 2) r) (fun rs' => valued O F (subpathLoop W S.Q N dir rs' (k + 1) (pre ++ [u, S.toVert x])))) = _ from funext hinner]
    have hT : Measurable fun y => S.rest (fun l => Ψ (y :: l)) m x.1.2 y := measurable_rest h (Ψ := fun y l => Ψ (y :: l)) (hΨ.comp measurable_cons) m measurable_const measurable_id
    rw [R.step h hG dir hx hw (K := K + Ψ []) (V := V) hT, add_assoc]
    intro y hy hfit hGy
    have hfin : (S.toVert y).sp.geom.infinite = false := toVert_finite h y
    rw [hVd]
    simp only [hfin]
    obtain ⟨-, -, hop, -⟩ := lk_ne hy
    have := ih (pre ++ [u]) (S.toVert x) x.1.2 y (toVert_finite h x) (h.faceted.at_point x.1.1 x.1.2).2.1 hop hfit (by simp; omega) k (by omega) F (K + Ψ []) (fun l => Ψ (y :: l)) (hΨ.comp (measurable_cons.comp measurable_prodMk_left)) (fun l hl => by
      have := hF (y :: l) ⟨hy, hfit, hGy, hl⟩
      rw [show pre ++ [u] ++ [S.toVert x, S.toVert y] ++ l.map S.toVert = pre ++ [u, S.toVert x] ++ (y :: l).map S.toVert by simp, this, List.length_cons, Finset.sum_range_succ', add_assoc, add_comm (Ψ [])]
      rfl) rs
    rw [show pre ++ [u] ++ [S.toVert x, S.toVert y] = pre ++ [u, S.toVert x] ++ [S.toVert y] by simp] at this
    rw [← this]
    simp [add_assoc]

/-! ### The first ray -/

/-- The first vertex, and what its ray meets. -/
noncomputable def leave (O : ℝ≥0∞) (W : World) (Q : Query) (K₀ : ℝ≥0∞) (K : Vert → ℝ≥0∞) (V : Vert → Vert → ℝ≥0∞) (b : ℝ) : SRes → ℝ≥0∞
  | .undef => O
  | .fail => K₀
  | .ok sp wo _ => Site.arrive O W Q (K ⟨sp, 0⟩) (V ⟨sp, 0⟩) sp.geom.p wo b

/-- The first iteration. -/
theorem loop_first {N : ℤ} (hN : 0 < N) {dir : TransDir} {rs : ℕ → Rnd} {k : ℕ} (F : List Vert → ℝ≥0∞) :
    valued O F (subpathLoop W S.Q N dir rs (k + 1) []) =
      leave O W S.Q (F []) (fun u => F [u]) (fun u v => if v.sp.geom.infinite then F [u, v] else valued O F (subpathLoop W S.Q N dir rs k [u, v])) (rs 0).comp (samplePrimaryRay W (rs 0).light dir) := by
  rw [subpathLoop, if_pos (by simpa using hN)]
  unfold subpathRay
  rw [if_pos (by rfl)]
  simp only [List.length_nil, List.nil_append, List.cons_append]
  cases samplePrimaryRay W (rs 0).light dir with
  | undef => rfl
  | fail => rfl
  | ok sp wo c =>
    dsimp only [leave]
    unfold Site.arrive
    cases S.Q.isect sp.geom.p wo with
    | none => rfl
    | some hit =>
      dsimp only
      cases sampleComponent W (rs 0).comp hit (-wo) with
      | none => rfl
      | some c =>
        dsimp only
        split_ifs <;> rfl

/-- The value of the first two vertices, averaged over the later random numbers. -/
noncomputable def first (S : Site) (O : ℝ≥0∞) (W : World) (N : ℕ) (dir : TransDir) (rs : ℕ → Rnd) (F : List Vert → ℝ≥0∞) (u v : Vert) : ℝ≥0∞ :=
  average (N - 1) 1 rs fun rs' => if v.sp.geom.infinite then F [u, v] else valued O F (subpathLoop W S.Q N dir rs' (N - 1) [u, v])

/-- The average over all random numbers is that over the numbers of the first ray. -/
theorem average_first {N : ℕ} (hN : 1 ≤ N) {dir : TransDir} (rs : ℕ → Rnd) (F : List Vert → ℝ≥0∞) :
    average N 0 rs (fun rs' => valued O F (sampleSubpath W S.Q N dir rs')) =
      averageStep fun r => leave O W S.Q (F []) (fun u => F [u]) (S.first O W N dir rs F) r.comp (samplePrimaryRay W r.light dir) := by
  obtain ⟨k, rfl⟩ : ∃ k, N = k + 1 := ⟨N - 1, by omega⟩
  simp only [average]
  congr 1
  funext r
  have e : ∀ rs', (∀ j < 0 + 1, rs' j = Function.update rs 0 r j) → valued O F (sampleSubpath W S.Q ((k + 1 : ℕ) : ℤ) dir rs') =
      leave O W S.Q (F []) (fun u => F [u]) (fun u v => if v.sp.geom.infinite then F [u, v] else valued O F (subpathLoop W S.Q ((k + 1 : ℕ) : ℤ) dir rs' k [u, v])) r.comp (samplePrimaryRay W r.light dir) := fun rs' hrs => by
    unfold sampleSubpath
    rw [if_neg (by omega), Int.toNat_natCast, loop_first (by omega), hrs 0 (by omega), Function.update_self]
  rw [average_congr _ _ _ _ _ e]
  cases samplePrimaryRay W r.light dir with
  | undef => simp only [leave]; rw [average_const]
  | fail => simp only [leave]; rw [average_const]
  | ok sp wo c =>
    simp only [leave]
    unfold Site.arrive
    cases S.Q.isect sp.geom.p wo with
    | none => simp only; rw [average_const]
    | some hit =>
      dsimp only
      cases sampleComponent W r.comp hit (-wo) with
      | none => simp only; rw [average_const]
      | some c =>
        dsimp only
        unfold first
        refine average_local (fun j => 1 ≤ j) (fun a b hab => ?_) _ _ fun j hj => ?_
        · rw [subpathLoop_local W S.Q _ dir _ _ a b fun j hj => hab j (by simp at hj; omega)]
        · rw [Function.update_of_ne (by omega)]

/-- The walk from the second vertex on. -/
theorem Works.second (h : S.Sound) (R : S.Works W n cam mat) {G : Spot → Prop} (hG : ∀ᵐ x ∂surf S.Fs, G x) {N : ℕ} (hN : 1 ≤ N) {dir : TransDir} {u : Vert} {w : V3 ℝ} {x : Node} (hu : u.sp.geom.infinite = false) (hup : u.sp.geom.p = w) (hw : S.Hop w x.1) (hx : S.Fit x)
    (F : List Vert → ℝ≥0∞) (K : ℝ≥0∞) {Ψ : List Node → ℝ≥0∞} (hΨ : Measurable Ψ) (hF : ∀ l, S.Good G w x l → F (u :: S.toVert x :: l.map S.toVert) = K + ∑ j ∈ Finset.range (l.length + 1), Ψ (l.take j)) (rs : ℕ → Rnd) :
    S.first O W N dir rs F u (S.toVert x) = K + S.rest Ψ (N - 2) w x := by
  unfold first
  have hfin : (S.toVert x).sp.geom.infinite = false := toVert_finite h x
  simp only [hfin]
  rcases Nat.lt_or_ge N 2 with h2 | h2
  · obtain rfl : N = 1 := by omega
    have hm : Measurable fun l => S.lks w x l * Ψ l := (h.m_lks measurable_const measurable_const measurable_id).mul hΨ
    have := hF [] trivial
    simp only [List.map_nil, List.length_nil, zero_add, Finset.sum_range_one, List.take_nil] at this
    show F [u, S.toVert x] = _
    rw [this, rest, show 1 - 2 + 1 = 1 from rfl, Finset.sum_range_one, lintegral_nil S.area _ hm]
    simp [lks]
  · obtain ⟨m, rfl⟩ : ∃ m, N = m + 2 := ⟨N - 2, by omega⟩
    rw [show m + 2 - 1 = m + 1 from rfl, show m + 2 - 2 = m from rfl]
    simp only [average, Bool.false_eq_true, if_false]
    have e : ∀ r, average m (1 + 1) (Function.update rs 1 r) (fun rs' => valued O F (subpathLoop W S.Q ((m + 2 : ℕ) : ℤ) dir rs' (m + 1) [u, S.toVert x])) = K + S.rest Ψ m w x := fun r =>
      R.walk h hG m [] u w x hu hup hw hx (by simp; ring) (m + 1) (by omega) F K Ψ hΨ hF _
    simp only [e]
    rw [averageStep_const]

/-! ### The eye subpath -/

/-- The camera of the site is that of the scene. -/
structure Camera' (S : Site) (W : World) (n : Int) (cam : Camera) : Prop where
  position : cam.position = S.eye
  We : ∀ d, camEval cam d = some (V3.all (S.We d))
  We0 : ∀ d, 0 ≤ S.We d

theorem Works.firstEye (h : S.Sound) (R : S.Works W n cam mat) (D : S.Camera' W n cam) {G : Spot → Prop} (hG : ∀ᵐ x ∂surf S.Fs, G x) {K₀ : ℝ≥0∞} {K : Vert → ℝ≥0∞} {V : Vert → Vert → ℝ≥0∞} {T : Node → ℝ≥0∞} (hT : Measurable T)
    (hV : ∀ y, S.eyeK y ≠ 0 → S.Fit y → G y.1 → V (camV W n cam) (S.toVert y) = K (camV W n cam) + T y) :
    averageStep (fun r => leave O W S.Q K₀ K V r.comp (samplePrimaryRay W r.light .EL)) = K (camV W n cam) + ∫⁻ y, S.eyeK y * T y ∂S.area := by
  classical
  choose dir hdir hd1 _ using fun q : ℝ × ℝ => C47_primary cam R.matte.proper q.1 q.2
  have e0 : ∀ u : RaySampleU, samplePrimaryRay W u .EL = .ok (camVertex W n cam) (dir (u.ud0, u.ud1)) (V3.all 1) := fun u => by
    have := hdir (u.ud0, u.ud1)
    dsimp only at this
    simp only [samplePrimaryRay, R.matte.camera, R.matte.cameraAt, camSampleRay, RaySampleU.toLight, this, wrap, camVertex, one_smul]
  have hlaw : ∀ L : V3 ℝ → ℝ≥0∞, Measurable L → ∫⁻ q, L (dir q) ∂uniform2 = ∫⁻ d, ENNReal.ofReal (S.We d) * L d ∂solidAngle := fun L hL => by
    have h1 := C81_camera cam W.junk R.matte.proper 0 0 0 0 L hL
    have hone : chan 0 (V3.all (1 : ℝ)) = 1 := rfl
    have e3 : ∀ q : ℝ × ℝ, worthRay 0 (fun _ wo => L wo) (camSampleRay cam W.junk ⟨0, 0, 0, q.1, q.2⟩) = L (dir q) := fun q => by
      simp only [camSampleRay, hdir q, worthRay, hone, ENNReal.ofReal_one, one_mul]
    simp_rw [e3, D.We] at h1
    exact h1
  have hnull : ∀ {P : V3 ℝ → Prop}, (∀ᵐ d ∂solidAngle, P d) → ∀ᵐ q ∂uniform2, P (dir q) ∧ 0 < S.We (dir q) := fun {P} hP => by
    set N := toMeasurable solidAngle {d | ¬ P d} ∪ {d | S.We d = 0} with hN
    have hNm : MeasurableSet N := (measurableSet_toMeasurable _ _).union (h.We (measurableSet_singleton 0))
    have hi : Measurable (N.indicator (fun _ => (1 : ℝ≥0∞))) := measurable_const.indicator hNm
    have hz : ∫⁻ q, N.indicator (fun _ => (1 : ℝ≥0∞)) (dir q) ∂uniform2 = 0 := by
      rw [hlaw _ hi]
      have hae : ∀ᵐ d ∂solidAngle, d ∉ toMeasurable solidAngle {d | ¬ P d} := by
        rw [ae_iff]
        simp only [not_not]
        show solidAngle (toMeasurable solidAngle {d | ¬ P d}) = 0
        rw [measure_toMeasurable]; exact ae_iff.mp hP
      rw [lintegral_congr_ae (hae.mono fun d hd => ?_), lintegral_zero]
      beta_reduce
      by_cases h0 : S.We d = 0
      · rw [h0]; simp
      · rw [indicator_of_notMem (fun c => c.elim hd h0), mul_zero]
    have hid : Measurable fun q => N.indicator (fun _ => (1 : ℝ≥0∞)) (dir q) := hi.comp (measurable_dir hdir)
    rw [lintegral_eq_zero_iff hid] at hz
    refine hz.mono fun q hq => ?_
    have hq' : dir q ∉ N := fun c => by
      simp only [indicator_of_mem c, Pi.zero_apply] at hq
      exact one_ne_zero hq
    refine ⟨?_, lt_of_le_of_ne (D.We0 _) fun c => hq' (Or.inr c.symm)⟩
    by_contra c
    exact hq' (Or.inl (subset_toMeasurable _ _ c))
  have hav : averageStep (fun r => leave O W S.Q K₀ K V r.comp (samplePrimaryRay W r.light .EL)) = ∫⁻ q, ∫⁻ b, Site.arrive O W S.Q (K (camV W n cam)) (V (camV W n cam)) S.eye (dir q) b ∂uniform1 ∂uniform2 := by
    unfold averageStep averageLight
    simp only [int1_const, int3_const, e0, leave]
    have ep : (camVertex W n cam).geom.p = S.eye := D.position
    rw [ep]
    rfl
  obtain ⟨hmm, harea⟩ := h.mean_area hT h.We.ennreal_ofReal S.eye
  have key : ∀ᵐ q ∂uniform2, ∫⁻ b, Site.arrive O W S.Q (K (camV W n cam)) (V (camV W n cam)) S.eye (dir q) b ∂uniform1 = K (camV W n cam) + S.mean T S.eye (dir q) := by
    refine (hnull (h.ae_hit hG S.eye)).mono fun q hq => ?_
    refine R.arrive h (hd1 q) fun y hy c hc => ?_
    obtain ⟨-, hj, hdr, hsee, hop, hneg, hngy⟩ := R.meet h (hd1 q) hy
    refine hV (y, c) ?_ ⟨hj, hc⟩ (hq.1 y hy)
    unfold eyeK
    rw [if_pos hsee]
    refine (ENNReal.ofReal_pos.mpr ?_).ne'
    unfold eyeR pickR
    dsimp only
    have hpp : 0 < S.pc y.1 c y.2 (dirOf (S.eye - y.2)) := by
      rw [dirOf_swap S.eye y.2, ← hdr]
      exact (R.component y.1 hj c hc y.2 _ hneg hngy).2
    rw [← hdr]
    exact mul_pos (mul_pos hq.2 (facing_pos hop)) hpp
  rw [hav, lintegral_congr_ae key, lintegral_add_left measurable_const, int2_const, hlaw _ hmm, harea]
  congr 1
  refine lintegral_congr_ae (area_fit.mono fun y hy => ?_)
  beta_reduce
  congr 1
  unfold eyeK
  by_cases hsee : Sees S.Q S.eye y.1.1 y.1.2
  · rw [if_pos hsee, if_pos hsee]
    unfold eyeR
    have h0 : 0 ≤ S.facing S.eye y.1 := div_nonneg (abs_nonneg _) (dot_self_nonneg _)
    rw [ENNReal.ofReal_mul (mul_nonneg (D.We0 _) h0), ENNReal.ofReal_mul (D.We0 _)]
  · rw [if_neg hsee, if_neg hsee]

/-- The law of the eye subpath: its prefixes of k points have density `eyes`. -/
theorem Works.eye (h : S.Sound) (R : S.Works W n cam mat) (D : S.Camera' W n cam) {G : Spot → Prop} (hG : ∀ᵐ x ∂surf S.Fs, G x) {N : ℕ} (hN : 1 ≤ N) (F : List Vert → ℝ≥0∞) {Ψ : List Node → ℝ≥0∞} (hΨ : Measurable Ψ)
    (hF : ∀ e, S.GoodE G e → F (camV W n cam :: e.map S.toVert) = ∑ j ∈ Finset.range (e.length + 1), Ψ (e.take j)) (rs : ℕ → Rnd) :
    average N 0 rs (fun rs' => valued O F (sampleSubpath W S.Q N .EL rs')) = ∑ k ∈ Finset.range (max N 2), ∫⁻ e, S.eyes e * Ψ e ∂paths S.area k := by
  have hT : Measurable fun y => S.rest (fun l => Ψ (y :: l)) (N - 2) S.eye y := measurable_rest h (Ψ := fun y l => Ψ (y :: l)) (hΨ.comp measurable_cons) _ measurable_const measurable_id
  have hbase : F [camV W n cam] = Ψ [] := by
    have := hF [] trivial
    simpa using this
  rw [average_first hN, R.firstEye h D hG (T := fun y => S.rest (fun l => Ψ (y :: l)) (N - 2) S.eye y) hT, hbase]
  · have hm : Measurable fun l => S.eyes l * Ψ l := (h.m_eyes measurable_id).mul hΨ
    have hc : Measurable fun q : Node × List Node => Ψ (q.1 :: q.2) := hΨ.comp measurable_cons
    have hk : Measurable fun q : Node × List Node => S.lks S.eye q.1 q.2 := h.m_lks measurable_const measurable_fst measurable_snd
    have hlk : Measurable fun y => S.eyeK y := h.m_eyeK measurable_id
    have hmk : ∀ k, Measurable fun y => S.eyeK y * ∫⁻ l, S.lks S.eye y l * Ψ (y :: l) ∂paths S.area k := fun k => hlk.mul (hk.mul hc).lintegral_prod_right'
    rw [show max N 2 = N - 2 + 1 + 1 by omega, Finset.sum_range_succ', lintegral_nil S.area _ hm, add_comm]
    congr 1
    · unfold rest
      simp_rw [Finset.mul_sum]
      rw [lintegral_finsetSum _ fun k _ => hmk k]
      refine Finset.sum_congr rfl fun k _ => ?_
      rw [lintegral_cons S.area hm]
      refine lintegral_congr fun y => ?_
      have hy : Measurable fun l => S.lks S.eye y l * Ψ (y :: l) := (hk.mul hc).comp measurable_prodMk_left
      rw [← lintegral_const_mul _ hy]
      refine lintegral_congr fun l => ?_
      simp only [eyes]
      ring
    · simp [eyes]
  · intro y hy hfit hGy
    rw [hbase]
    refine R.second h hG hN rfl D.position (eyeK_ne hy).2.2 hfit F _ (hΨ.comp (measurable_cons.comp measurable_prodMk_left)) (fun l hl => ?_) rs
    have := hF (y :: l) ⟨hy, hfit, hGy, hl⟩
    rw [List.map_cons] at this
    rw [this, List.length_cons, Finset.sum_range_succ', add_comm]
    rfl

end Site

end LM.Transport
