import Verif.Props.C88_Mix
/-
  C88: the image of renderer::bdptopt.
-/
namespace LM.Transport
open MeasureTheory LM LM.Surface LM.Material LM.Light LM.MathF LM.Path LM.Render LM.Solid LM.Chain Set
open scoped ENNReal

namespace Site
variable {S : Site} {W : World} {n : Int} {cam : Camera} {H : ℝ × ℝ → ℝ≥0∞} {mat : Int → Mat}
variable {node : ℕ → Int} {M : ℕ → Aff ℝ} {sgn : V3 ℝ → Bool} {junk : V3 ℝ} {Ke : ℕ → V3 ℝ} {ts : ℕ → List Tri}

/-- The point and component of a vertex. -/
def nodeOf (v : Vert) : Node := ((v.sp.primitive, v.sp.geom.p), v.comp)

theorem nodeOf_toVert (h : S.Sound) (y : Node) : nodeOf (S.toVert y) = y := by
  have e1 : (S.toVert y).sp.primitive = y.1.1 := (h.faceted.at_point _ _).1
  have e2 : (S.toVert y).sp.geom.p = y.1.2 := (h.faceted.at_point _ _).2.1
  unfold nodeOf
  rw [e1, e2]
  rfl

theorem map_nodeOf (h : S.Sound) (l : List Node) : (l.map S.toVert).map nodeOf = l := by
  rw [List.map_map]
  conv_rhs => rw [← List.map_id l]
  exact List.map_congr_left fun y _ => nodeOf_toVert h y

/-- What the subpaths with the given vertices add. -/
noncomputable def both (S : Site) (U : ℕ → ℕ → Bool) (i : Fin 3) (e : List Node) (z : Spot) (l : List Node) : ℝ≥0∞ :=
  (∑ j ∈ Finset.range (e.length + 1), if U 0 ((e.take j).length + 1) then S.ohit i (e.take j) else 0) + ∑ j ∈ Finset.range (l.length + 1), S.joinw U S.bal i e z (l.take j)

/-- The vertices of the subpaths sampled almost surely. -/
structure Usual (S : Site) (W : World) (n : Int) (cam : Camera) (e : List Node) (zv : Vert) (z : Spot) (l : List Node) : Prop where
  eye : S.GoodE (S.Fine W n cam) e
  lit : S.Lit zv z
  pA : 0 < S.pA z.1
  fine : S.Fine W n cam z ∧ ∀ y ∈ e, y.1.2 ≠ z.2
  light : S.GoodL (fun x => S.Fine W n cam x ∧ ∀ y ∈ e, y.1.2 ≠ x.2) z l

def Common (S : Site) (W : World) (n : Int) (cam : Camera) (E L : List Vert) : Prop :=
  ∃ e zv z l, S.Usual W n cam e zv z l ∧ E = camV W n cam :: e.map S.toVert ∧ L = zv :: l.map S.toVert

open Classical in
/-- What the subpaths with the vertices E and L add, or O for unusual subpaths. -/
noncomputable def bound (S : Site) (W : World) (n : Int) (cam : Camera) (U : ℕ → ℕ → Bool) (i : Fin 3) (O : ℝ≥0∞) (E L : List Vert) : ℝ≥0∞ :=
  if S.Common W n cam E L then
    match L with
    | [] => 0
    | zv :: vs => S.both U i ((E.drop 1).map nodeOf) (nodeOf zv).1 (vs.map nodeOf)
  else O

theorem bound_usual (h : S.Sound) (U : ℕ → ℕ → Bool) (i : Fin 3) (O : ℝ≥0∞) {e : List Node} {zv : Vert} {z : Spot} {l : List Node} (hu : S.Usual W n cam e zv z l) :
    S.bound W n cam U i O (camV W n cam :: e.map S.toVert) (zv :: l.map S.toVert) = S.both U i e z l := by
  unfold bound
  rw [if_pos ⟨e, zv, z, l, hu, rfl, rfl⟩]
  dsimp only
  rw [show (camV W n cam :: e.map S.toVert).drop 1 = e.map S.toVert from rfl, map_nodeOf h, map_nodeOf h]
  congr 1
  unfold nodeOf
  dsimp only
  rw [hu.lit.primitive, hu.lit.p]

theorem bound_unusual (U : ℕ → ℕ → Bool) (i : Fin 3) (O : ℝ≥0∞) {E L : List Vert} (hu : ¬ S.Common W n cam E L) : S.bound W n cam U i O E L = O := if_neg hu

variable (V : S.Proper) (h : S.Sound) (T : S.Told W n cam) (A : S.Stage W n H)

include h T A V in
/-- What a pair of cached subpaths adds lies between the bounds. -/
theorem opt_bounds (hB : ∀ j ∈ S.Fs.map (·.1), W.cameraAt j = none) {min : ℤ} (hmin : 2 ≤ min) (N : ℕ) (i : Fin 3) {L E : List CV} (RL : Run W .LE .light L) (RE : Run W .EL .camera E) :
    S.bound W n cam (fun s t => decide (min ≤ (s : ℤ) + t ∧ (s : ℤ) + t ≤ N)) i 0 (E.map CV.vert) (L.map CV.vert) ≤ measured i H (gather ((bdptPairs min N L.length E.length).map (optSplat W S.Q L E))) ∧
    measured i H (gather ((bdptPairs min N L.length E.length).map (optSplat W S.Q L E))) ≤ S.bound W n cam (fun s t => decide (min ≤ (s : ℤ) + t ∧ (s : ℤ) + t ≤ N)) i ⊤ (E.map CV.vert) (L.map CV.vert) := by
  by_cases hc : S.Common W n cam (E.map CV.vert) (L.map CV.vert)
  · obtain ⟨e, zv, z, l, hu, hE, hL⟩ := hc
    have key : measured i H (gather ((bdptPairs min N L.length E.length).map (optSplat W S.Q L E))) = S.both (fun s t => decide (min ≤ (s : ℤ) + t ∧ (s : ℤ) + t ≤ N)) i e z l := by
      rw [measured_gather, List.map_map, sum_pairs (U := fun s t => decide (min ≤ (s : ℤ) + t ∧ (s : ℤ) + t ≤ N)) (C55_bdpt _ _ _ _).2 (fun s t => by rw [(C55_bdpt _ _ _ _).1, decide_eq_true_eq]) (measured i H ∘ _)]
      exact opt_sum V h T A hB (U := fun s t => decide (min ≤ (s : ℤ) + t ∧ (s : ℤ) + t ≤ N)) (fun s t hs => by have := (of_decide_eq_true hs).1; omega) i RL RE hu.eye hu.lit hu.pA hu.fine hu.light hL hE
    rw [key, hE, hL, bound_usual h _ i 0 hu, bound_usual h _ i ⊤ hu]
    exact ⟨le_rfl, le_rfl⟩
  · rw [bound_unusual _ i 0 hc, bound_unusual _ i ⊤ hc]
    exact ⟨zero_le, le_top⟩

include V in
/-- The average of renderer::bdptopt: strategies with a light subpath, and those without it. -/
theorem Works.bdptopt (h : S.Sound) (R : S.Works W n cam mat) (D : S.Camera' W n cam) (B : S.Lamped W node M sgn junk Ke ts) (T : S.Told W n cam) (A : S.Stage W n H) (K : S.Back W) (hB : ∀ j ∈ S.Fs.map (·.1), W.cameraAt j = none) (i : Fin 3)
    {min : ℤ} (hmin : 2 ≤ min) {N : ℕ} (hN : 2 ≤ N) (junk0 : ℝ) (junkW : V3 ℝ) (rsE rsL : ℕ → Rnd) :
    average N 0 rsE (fun a => average N 0 rsL (fun b => measured i H (bdptOptSample W S.Q junk0 junkW min N a b))) =
      ∑ j ∈ Finset.range (N - 1), if min ≤ (j : ℤ) + 2 then S.lone i j + ∑ s ∈ Finset.range (j + 1), S.part S.bal i (s + 1) j else 0 := by
  set U : ℕ → ℕ → Bool := fun s t => decide (min ≤ (s : ℤ) + t ∧ (s : ℤ) + t ≤ N) with hU
  have hlim : Measurable fun e : List Node => if U 0 (e.length + 1) then S.ohit i e else 0 := by
    have hF : Measurable fun q : ℕ × List Node => (if U 0 (q.1 + 1) then S.ohit i q.2 else 0 : ℝ≥0∞) := by
      refine measurable_from_prod_countable_right fun m => ?_
      cases hu : U 0 (m + 1) with
      | true => simpa only [hu, if_true] using h.m_ohit i
      | false => simpa only [hu, Bool.false_eq_true, if_false] using measurable_const
    have hn : Measurable fun e : List Node => (e.length, e) := measurable_length.prodMk measurable_id
    have := hF.comp hn
    simpa only [Function.comp_def] using this
  have value : ∀ O : ℝ≥0∞, average N 0 rsE (fun a => average N 0 rsL (fun b => valued ⊤ (fun E => valued ⊤ (S.bound W n cam U i O E) (sampleSubpath W S.Q N .LE b)) (sampleSubpath W S.Q N .EL a))) =
      ∑ j ∈ Finset.range (N - 1), if min ≤ (j : ℤ) + 2 then S.lone i j + ∑ s ∈ Finset.range (j + 1), S.part S.bal i (s + 1) j else 0 := fun O => by
    rw [average_both N N (sampleSubpath W S.Q N .EL) (sampleSubpath W S.Q N .LE) (S.bound W n cam U i O) _ (fun _ _ => rfl)]
    rw [R.blend h D B V (U := U) h.m_bal i hlim (by omega) (by omega) (S.bound W n cam U i O) (fun e he zv z l hz _ hpA hzG hl => bound_usual h U i O ⟨he, hz, hpA, hzG, hl⟩) rsE rsL]
    rw [max_eq_left hN, Finset.sum_add_distrib]
    have e0 : ∑ t ∈ Finset.range N, ∫⁻ e, S.eyes e * (if U 0 (e.length + 1) then S.ohit i e else 0) ∂paths S.area t = ∑ j ∈ Finset.range (N - 1), if min ≤ (j : ℤ) + 2 then S.lone i j else 0 := by
      conv_lhs => rw [show N = N - 1 + 1 by omega, Finset.sum_range_succ']
      have hm0 : Measurable fun e : List Node => S.eyes e * (if U 0 (e.length + 1) then S.ohit i e else 0) := (h.m_eyes measurable_id).mul hlim
      rw [lintegral_nil S.area _ hm0, ohit_nil, ite_self, mul_zero, add_zero]
      refine Finset.sum_congr rfl fun j hj => ?_
      have := Finset.mem_range.mp hj
      have hiff : U 0 (j + 1 + 1) = true ↔ min ≤ (j : ℤ) + 2 := by
        simp only [hU, decide_eq_true_eq]
        push_cast
        omega
      rw [lintegral_congr_ae (g := fun e => S.eyes e * (if U 0 (j + 1 + 1) then S.ohit i e else 0)) ((ae_length S.area (j + 1)).mono fun e he => by beta_reduce; rw [he])]
      by_cases hj : min ≤ (j : ℤ) + 2
      · rw [if_pos hj]
        simp only [hiff.mpr hj, if_true]
        exact V.ohits h i j
      · rw [if_neg hj]
        have hf : U 0 (j + 1 + 1) = false := by
          rw [← Bool.not_eq_true]
          exact fun c => hj (hiff.mp c)
        simp [hf]
    have e1 := sum_lengths (fun s j => S.part S.bal i s j) (fun l => decide (min ≤ (l : ℤ))) N hN
    have e2 : ∑ t ∈ Finset.range N, ∑ k ∈ Finset.range N, (if U (k + 1) (t + 1) then S.part S.bal i (k + 1) (t + k) else 0) = ∑ j ∈ Finset.range (N - 1), if min ≤ (j : ℤ) + 2 then ∑ s ∈ Finset.range (j + 1), S.part S.bal i (s + 1) j else 0 := by
      refine Eq.trans (Finset.sum_congr rfl fun t _ => Finset.sum_congr rfl fun k _ => if_congr ?_ rfl rfl) (e1.trans (Finset.sum_congr rfl fun j _ => if_congr ?_ rfl rfl))
      · simp only [hU, decide_eq_true_eq]
        push_cast
        omega
      · simp only [decide_eq_true_eq]
        push_cast
        rfl
    rw [e0, e2, ← Finset.sum_add_distrib]
    refine Finset.sum_congr rfl fun j _ => ?_
    by_cases hj : min ≤ (j : ℤ) + 2
    · rw [if_pos hj, if_pos hj, if_pos hj]
    · rw [if_neg hj, if_neg hj, if_neg hj, add_zero]
  have point : ∀ a b : ℕ → Rnd, (∀ m < 0 + N, (a m).Valid) → (∀ m < 0 + N, (b m).Valid) →
      valued ⊤ (fun E => valued ⊤ (S.bound W n cam U i 0 E) (sampleSubpath W S.Q N .LE b)) (sampleSubpath W S.Q N .EL a) ≤ measured i H (bdptOptSample W S.Q junk0 junkW min N a b) ∧
      measured i H (bdptOptSample W S.Q junk0 junkW min N a b) ≤ valued ⊤ (fun E => valued ⊤ (S.bound W n cam U i ⊤ E) (sampleSubpath W S.Q N .LE b)) (sampleSubpath W S.Q N .EL a) := fun a b ha hb => by
    rw [zero_add] at ha hb
    unfold bdptOptSample
    rcases (R.driveEye h T K ha).subpath (junk := junk0) (junkW := junkW) with ⟨e1, e2⟩ | ⟨E, e2, e1, RE⟩
    · rw [e1, e2]
      exact ⟨le_rfl, le_rfl⟩
    · rcases (R.driveLight h B T K hb).subpath (junk := junk0) (junkW := junkW) with ⟨f1, f2⟩ | ⟨L, f2, f1, RL⟩
      · rw [e1, e2, f1, f2]
        exact ⟨le_rfl, le_rfl⟩
      · rw [e1, e2, f1, f2]
        exact opt_bounds V h T A hB hmin N i RL RE
  refine le_antisymm ?_ ?_
  · rw [← value ⊤]
    exact average_le N 0 rsE (fun _ hm => absurd hm (by omega)) fun a ha => average_le N 0 rsL (fun _ hm => absurd hm (by omega)) fun b hb => (point a b ha hb).2
  · rw [← value 0]
    exact average_le N 0 rsE (fun _ hm => absurd hm (by omega)) fun a ha => average_le N 0 rsL (fun _ hm => absurd hm (by omega)) fun b hb => (point a b ha hb).1

/-! ### Comparison with the light that reaches the camera -/

/-- The materials of the lights have one component. -/
def Single (S : Site) : Prop := ∀ j ∈ S.Fs.map (·.1), (∃ p d, S.Le j p d ≠ 0) → (S.C j).card = 1

/-- The materials of the lights have k components. -/
theorem lone_card (i : Fin 3) {k : ℕ} (hk : ∀ j ∈ S.Fs.map (·.1), (∃ p d, S.Le j p d ≠ 0) → (S.C j).card = k) (j : ℕ) : S.lone i j = k * S.part S.bal i 0 j := by
  unfold lone part
  rw [← lintegral_const_mul' _ _ (ENNReal.natCast_ne_top k)]
  refine lintegral_congr fun m => ?_
  rw [← lintegral_const_mul' _ _ (ENNReal.natCast_ne_top k)]
  refine lintegral_congr_ae (face_ae.mono fun z hz => ?_)
  beta_reduce
  by_cases hw : S.whole i m z = 0
  · rw [hw, mul_zero, mul_zero, mul_zero]
  · obtain ⟨d, hd⟩ := whole_Le hw
    rw [hk z.1 hz ⟨z.2, d, hd⟩]

include V in
theorem Proper.lone_sum (h : S.Sound) (i : Fin 3) {k : ℕ} (hk : ∀ j ∈ S.Fs.map (·.1), (∃ p d, S.Le j p d ≠ 0) → (S.C j).card = k + 1) (j : ℕ) :
    S.lone i j + ∑ s ∈ Finset.range (j + 1), S.part S.bal i (s + 1) j = S.through i j + k * S.part S.bal i 0 j := by
  rw [lone_card i hk, ← V.part_bal h i j, Finset.sum_range_succ' _ (j + 1)]
  push_cast
  ring

end Site
end LM.Transport
