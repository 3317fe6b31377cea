import Verif.Props.C88_Value
import Verif.Props.C88_Drive
import Verif.Props.C87_Bdpt
/-
  C88: the average over the cached subpaths of what the strategies of renderer::bdptopt add.
-/
namespace LM.Transport
open MeasureTheory LM LM.Surface LM.Material LM.Light LM.MathF LM.Path LM.Render LM.Solid LM.Chain Set
open scoped ENNReal

/-! ### Averages of functions that are comparable for random numbers in [0,1) -/

theorem averageStep_le {f g : Rnd → ℝ≥0∞} (h : ∀ r : Rnd, r.Valid → f r ≤ g r) : averageStep f ≤ averageStep g := by
  unfold averageStep averageLight
  refine lintegral_mono_ae (uniform1_ae.mono fun s hs => lintegral_mono_ae (cube_ae.mono fun p hp => lintegral_mono_ae (uniform2_ae.mono fun q hq => lintegral_mono_ae (cube_ae.mono fun u hu => lintegral_mono fun a => lintegral_mono_ae (uniform1_ae.mono fun b hb => h _ ?_)))))
  exact ⟨⟨hs, hp.1, hp.2.1, hp.2.2, hq.1, hq.2⟩, ⟨hu.1, hu.2.1, hu.2.2⟩, hb⟩

theorem average_le (k nv : ℕ) (rs : ℕ → Rnd) {f g : (ℕ → Rnd) → ℝ≥0∞} (h0 : ∀ m < nv, (rs m).Valid) (h : ∀ rs' : ℕ → Rnd, (∀ m < nv + k, (rs' m).Valid) → f rs' ≤ g rs') : average k nv rs f ≤ average k nv rs g := by
  induction k generalizing nv rs with
  | zero => exact h rs h0
  | succ k ih =>
    simp only [average]
    refine averageStep_le fun r hr => ih (nv + 1) _ (fun m hm => ?_) (fun rs' hrs => h rs' (by rwa [show nv + (k + 1) = nv + 1 + k by omega]))
    by_cases e : m = nv
    · rw [e, Function.update_self]; exact hr
    · rw [Function.update_of_ne e]; exact h0 m (by omega)

namespace Site
variable {S : Site} {W : World} {n : Int} {cam : Camera} {H : ℝ × ℝ → ℝ≥0∞} {mat : Int → Mat}
variable {node : ℕ → Int} {M : ℕ → Aff ℝ} {sgn : V3 ℝ → Bool} {junk : V3 ℝ} {Ke : ℕ → V3 ℝ} {ts : ℕ → List Tri}

/-! ### The eye subpath meets a light -/

/-- What the eye subpath of exactly the points e adds: the weight of the component sampled at its last point remains in the contribution. -/
noncomputable def ohit (S : Site) (i : Fin 3) (e : List Node) : ℝ≥0∞ :=
  match e.reverse with
  | [] => 0
  | y :: r => (ENNReal.ofReal (S.pickR (lastP S.eye r.reverse) y))⁻¹ * S.worth S.bal i 0 r.reverse y.1

theorem ohit_nil (i : Fin 3) : S.ohit i [] = 0 := rfl

theorem ohit_snoc (i : Fin 3) (m : List Node) (y : Node) : S.ohit i (m ++ [y]) = (ENNReal.ofReal (S.pickR (lastP S.eye m) y))⁻¹ * S.worth S.bal i 0 m y.1 := by
  unfold ohit
  simp

theorem measurable_lastP (o : V3 ℝ) : Measurable fun r : List Node => lastP o r.reverse := by
  refine measurable_rec' (F := fun r : List Node => lastP o r.reverse) fun n _ => ?_
  simp only [lastP_reverse]
  exact measurable_snd.comp (measurable_fst.comp measurable_fst)

theorem Sound.m_ohit (h : S.Sound) (i : Fin 3) : Measurable (S.ohit i) := by
  have h1 : Measurable fun r : List Node => (match r with | [] => 0 | y :: r => (ENNReal.ofReal (S.pickR (lastP S.eye r.reverse) y))⁻¹ * S.worth S.bal i 0 r.reverse y.1 : ℝ≥0∞) := by
    refine measurable_rec' (F := fun r : List Node => (match r with | [] => 0 | y :: r => (ENNReal.ofReal (S.pickR (lastP S.eye r.reverse) y))⁻¹ * S.worth S.bal i 0 r.reverse y.1 : ℝ≥0∞)) fun n _ => ?_
    have hr : Measurable fun q : Node × (Fin n → Node) => List.ofFn q.2 := (measurable_ofFn n).comp measurable_snd
    exact (h.m_pickR ((measurable_lastP S.eye).comp hr) measurable_fst).ennreal_ofReal.inv.mul (h.m_worth h.m_bal i 0 (measurable_reverse.comp hr) (measurable_fst.comp measurable_fst))
  exact h1.comp measurable_reverse

/-- What the strategy without light subpath adds for the paths with j points between the camera and the light: each is counted once for each component of the material of the light. -/
noncomputable def lone (S : Site) (i : Fin 3) (j : ℕ) : ℝ≥0∞ := ∫⁻ m, ∫⁻ z, ((S.C z.1).card : ℝ≥0∞) * (S.share S.bal m z 0 * S.whole i m z) ∂surf S.Fs ∂paths S.area j

variable (V : S.Proper)

include V in
theorem Proper.mass_ohit {i : Fin 3} {m : List Node} {z : Spot} (hm : ∀ y ∈ m, S.Fit y) (hz : z.1 ∈ S.Fs.map (·.1)) :
    ∑ c ∈ S.C z.1, S.eyes (m ++ [(z, c)]) * S.ohit i (m ++ [(z, c)]) = ((S.C z.1).card : ℝ≥0∞) * (S.share S.bal m z 0 * S.whole i m z) := by
  have key : ∀ c ∈ S.C z.1, S.eyes (m ++ [(z, c)]) * S.ohit i (m ++ [(z, c)]) = S.share S.bal m z 0 * S.whole i m z := fun c hc => by
    rw [ohit_snoc]
    by_cases hw : S.whole i m z = 0
    · rw [worth_zero hw, hw]; simp
    · have hp : 0 < S.pickR (lastP S.eye m) (z, c) := V.pick ⟨hz, hc⟩ (whole_ne hw).1
      have hp' := ENNReal.ofReal_pos.mpr hp
      rw [V.eyes_last hw hm hz hc, show S.pc z.1 c z.2 (dirOf (lastP S.eye m - z.2)) = S.pickR (lastP S.eye m) (z, c) from rfl, ENNReal.ofReal_mul' hp.le, ← Site.mass_worth, mul_assoc]
      congr 1
      exact ENNReal.mul_inv_cancel_left hp'.ne' ENNReal.ofReal_ne_top
  rw [Finset.sum_congr rfl key, Finset.sum_const, nsmul_eq_mul]

include V in
theorem Proper.ohits (h : S.Sound) (i : Fin 3) (t : ℕ) : ∫⁻ e, S.eyes e * S.ohit i e ∂paths S.area (t + 1) = S.lone i t := by
  have hm : Measurable fun e => S.eyes e * S.ohit i e := (h.m_eyes measurable_id).mul (h.m_ohit i)
  rw [lintegral_snoc S.area hm]
  unfold lone
  refine lintegral_congr_ae ((paths_ae S.area fit_placed_ae t).mono fun m hfit => ?_)
  beta_reduce
  have hsn : Measurable fun y : Node => m ++ [y] := measurable_append.comp ((measurable_cons.comp (measurable_id.prodMk measurable_const)).prodMk measurable_const)
  rw [area_surf (F := fun y => S.eyes (m ++ [y]) * S.ohit i (m ++ [y])) (hm.comp hsn)]
  exact lintegral_congr_ae (placed_ae.mono fun z hz => V.mass_ohit (fun y hy => (hfit y hy).1) hz.prim)

/-! ### What a pair of subpaths adds -/

variable (h : S.Sound) (T : S.Told W n cam) (A : S.Stage W n H)

include h T A V in
theorem opt_sum (hB : ∀ j ∈ S.Fs.map (·.1), W.cameraAt j = none) {U : ℕ → ℕ → Bool} (hU : ∀ s t, U s t = true → 2 ≤ s + t) (i : Fin 3) {L E : List CV} (RL : Run W .LE .light L) (RE : Run W .EL .camera E) {e : List Node} (hE : S.GoodE (S.Fine W n cam) e)
    {zv : Vert} {z : Spot} (hz : S.Lit zv z) (hpA : 0 < S.pA z.1) (hzF : S.Fine W n cam z ∧ ∀ y ∈ e, y.1.2 ≠ z.2) {l : List Node} (hL : S.GoodL (fun x => S.Fine W n cam x ∧ ∀ y ∈ e, y.1.2 ≠ x.2) z l)
    (hLv : L.map CV.vert = zv :: l.map S.toVert) (hEv : E.map CV.vert = camV W n cam :: e.map S.toVert) :
    ∑ s ∈ Finset.range (L.length + 1), ∑ t ∈ Finset.range (E.length + 1), (if U s t then measured i H (optSplat W S.Q L E (s, t)) else 0) =
      (∑ j ∈ Finset.range (e.length + 1), if U 0 ((e.take j).length + 1) then S.ohit i (e.take j) else 0) + ∑ j ∈ Finset.range (l.length + 1), S.joinw U S.bal i e z (l.take j) := by
  have lL : L.length = l.length + 1 := by rw [← List.length_map (f := CV.vert), hLv]; simp
  have lE : E.length = e.length + 1 := by rw [← List.length_map (f := CV.vert), hEv]; simp
  rw [Finset.sum_range_succ', add_comm, lL, lE]
  congr 1
  · rw [Finset.sum_range_succ', if_neg (fun c => by have := hU 0 0 c; omega), add_zero]
    refine Finset.sum_congr rfl fun j hj => ?_
    have hj' : j ≤ e.length := by have := Finset.mem_range.mp hj; omega
    rw [List.length_take, min_eq_left hj']
    by_cases hu : U 0 (j + 1) = true
    · rw [if_pos hu, if_pos hu]
      have h2 := hU _ _ hu
      obtain ⟨k, rfl⟩ : ∃ k, j = k + 1 := ⟨j - 1, by omega⟩
      have hk : k < e.length := by omega
      rw [opt_hit h T A V RL RE hEv hk hE, ← List.take_concat_get' e k hk, ohit_snoc]
    · rw [if_neg hu, if_neg hu]
  · refine Finset.sum_congr rfl fun j hj => ?_
    have hj' : j ≤ l.length := by have := Finset.mem_range.mp hj; omega
    unfold joinw
    rw [List.length_take, min_eq_left hj', Finset.sum_range_succ']
    have h0 : (if U (j + 1) 0 then measured i H (optSplat W S.Q L E (j + 1, 0)) else 0) = 0 := by
      by_cases hu : U (j + 1) 0 = true
      · rw [if_pos hu]
        have h2 := hU _ _ hu
        obtain ⟨k, rfl⟩ : ∃ k, j = k + 1 := ⟨j - 1, by omega⟩
        exact opt_dead h hB i hLv (fun y hy => (hL.fit y hy).1) _ (by omega)
      · rw [if_neg hu]
    rw [h0, add_zero]
    refine Finset.sum_congr rfl fun t ht => ?_
    have ht' : t ≤ e.length := by have := Finset.mem_range.mp ht; omega
    by_cases hu : U (j + 1) (t + 1) = true
    · rw [if_pos hu, if_pos hu]
      have hd : (endS z (l.take j)).2 ≠ lastP S.eye (e.take t) := by
        have ha : S.Fine W n cam (endS z (l.take j)) ∧ ∀ y ∈ e, y.1.2 ≠ (endS z (l.take j)).2 := by
          rcases endS_mem z (l.take j) with c | ⟨y, hy, c⟩
          · rw [c]; exact hzF
          · rw [c]; exact (hL.fit y (List.mem_of_mem_take hy)).2
        rcases lastP_mem S.eye (e.take t) with c | ⟨y, hy, c⟩
        · rw [c]; exact ha.1.2.1
        · rw [c]; exact (ha.2 y (List.mem_of_mem_take hy)).symm
      exact opt_join h T A V RL RE hz hpA hzF.1 hLv hEv hj' ht' hE (hL.mono fun y hy => hy.1) hd
    · rw [if_neg hu, if_neg hu]

end Site
end LM.Transport
