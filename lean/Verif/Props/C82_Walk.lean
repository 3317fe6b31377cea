import Verif.Spec.Transport
import Verif.Props.C53_Roulette
import Verif.Props.C81_Select
import Verif.Props.C81_Light
namespace LM.Transport
open MeasureTheory LM LM.Surface LM.Material LM.Light LM.Path LM.Render LM.Solid
open scoped ENNReal

/-! ### Averages -/

theorem uniform1_univ : uniform1 Set.univ = 1 := by unfold uniform1; simp
theorem uniform2_univ : uniform2 Set.univ = 1 := by
  unfold uniform2
  rw [Measure.restrict_apply_univ, Measure.volume_eq_prod, Measure.prod_prod]; simp

theorem int1_const (c : ℝ≥0∞) : ∫⁻ _, c ∂uniform1 = c := by rw [lintegral_const, uniform1_univ, mul_one]
theorem int2_const (c : ℝ≥0∞) : ∫⁻ _, c ∂uniform2 = c := by rw [lintegral_const, uniform2_univ, mul_one]
theorem int3_const (c : ℝ≥0∞) : ∫⁻ _, c ∂uniform3 = c := by rw [lintegral_const, Solid.uniform3_univ, mul_one]

theorem averageLight_add (f : RaySampleU → ℝ≥0∞) (c : ℝ≥0∞) : averageLight (fun l => f l + c) = averageLight f + c := by
  unfold averageLight
  simp_rw [lintegral_add_right _ measurable_const, int2_const, int3_const, int1_const]

theorem averageLight_const (c : ℝ≥0∞) : averageLight (fun _ => c) = c := by
  unfold averageLight
  simp_rw [int2_const, int3_const, int1_const]

theorem averageStep_const (c : ℝ≥0∞) : averageStep (fun _ => c) = c := by
  unfold averageStep
  simp_rw [int1_const, int3_const, averageLight_const]

theorem averageStep_add (c : ℝ≥0∞) (f : Rnd → ℝ≥0∞) : averageStep (fun r => c + f r) = c + averageStep f := by
  unfold averageStep
  simp_rw [lintegral_add_left measurable_const, int1_const, int3_const]
  rw [add_comm, ← averageLight_add]
  simp_rw [add_comm c]

theorem average_const (k nv : ℕ) (rs : ℕ → Rnd) (c : ℝ≥0∞) : average k nv rs (fun _ => c) = c := by
  induction k generalizing nv rs with
  | zero => rfl
  | succ k ih => simp only [average, ih, averageStep_const]

theorem average_add (k nv : ℕ) (rs : ℕ → Rnd) (c : ℝ≥0∞) (f) : average k nv rs (fun rs' => c + f rs') = c + average k nv rs f := by
  induction k generalizing nv rs with
  | zero => rfl
  | succ k ih => simp only [average, ih, averageStep_add]

theorem average_congr (k nv : ℕ) (rs : ℕ → Rnd) (f g) (h : ∀ rs', (∀ j < nv, rs' j = rs j) → f rs' = g rs') : average k nv rs f = average k nv rs g := by
  induction k generalizing nv rs with
  | zero => exact h rs fun _ _ => rfl
  | succ k ih =>
    simp only [average]
    congr 1
    funext r
    refine ih _ _ fun rs' h' => h rs' fun j hj => ?_
    rw [h' j (by omega), Function.update_of_ne (by omega)]

theorem measured_append (i : Fin 3) (H : ℝ × ℝ → ℝ≥0∞) (a b : List Splat) : measured i H (some (a ++ b)) = measured i H (some a) + measured i H (some b) := by simp [measured]

/-- What the k iterations after the next vertex add. -/
noncomputable def after (W : World) (rr : ℕ → V3 ℝ → ℝ → Option (Option (V3 ℝ))) (body : ℕ → St → Rnd → Option (List Splat × Option Hop)) (i : Fin 3) (H : ℝ × ℝ → ℝ≥0∞) (rs : ℕ → Rnd) (k nv : ℕ) :
    Option (Option St) → ℝ≥0∞
  | none => ⊤
  | some none => 0
  | some (some st') => average k (nv + 1) rs fun rs' => measured i H (walk W rr body rs' k (nv + 1) st')

/-- The average over one iteration and those that follow. -/
theorem average_walk (W : World) (rr) (body) (i : Fin 3) (H : ℝ × ℝ → ℝ≥0∞) (rs : ℕ → Rnd) (k nv : ℕ) (st : St) :
    average (k + 1) nv rs (fun rs' => measured i H (walk W rr body rs' (k + 1) nv st)) =
      averageStep fun r => match body nv st r with
        | none => ⊤
        | some (out, none) => measured i H (some out)
        | some (out, some h) => measured i H (some out) + after W rr body i H (Function.update rs nv r) k nv (advance W rr nv h r) := by
  rw [average]
  congr 1
  funext r
  have hr : ∀ rs' : ℕ → Rnd, (∀ j < nv + 1, rs' j = Function.update rs nv r j) → rs' nv = r := fun rs' h => by rw [h nv (by omega), Function.update_self]
  rcases hb : body nv st r with _ | ⟨out, _ | h⟩
  · dsimp only
    rw [average_congr k (nv + 1) _ _ (fun _ => ⊤), average_const]
    intro rs' h'
    simp only [walk, hr rs' h', hb, measured]
  · dsimp only
    rw [average_congr k (nv + 1) _ _ (fun _ => measured i H (some out)), average_const]
    intro rs' h'
    simp only [walk, hr rs' h', hb]
  · dsimp only
    rcases ha : advance W rr nv h r with _ | _ | st'
    · rw [average_congr k (nv + 1) _ _ (fun _ => ⊤), average_const]
      · simp [after]
      · intro rs' h'
        simp only [walk, hr rs' h', hb, ha, measured]
    · rw [average_congr k (nv + 1) _ _ (fun _ => measured i H (some out)), average_const]
      · simp [after]
      · intro rs' h'
        simp only [walk, hr rs' h', hb, ha]
    · rw [average_congr k (nv + 1) _ _ (fun rs' => measured i H (some out) + measured i H (walk W rr body rs' k (nv + 1) st')), average_add]
      · rfl
      · intro rs' h'
        simp only [walk, hr rs' h', hb, ha]
        cases walk W rr body rs' k (nv + 1) st' with
        | none => simp [measured]
        | some l => rw [Option.map_some, measured_append]

/-! ### Roulette -/

theorem chan_nonneg {t : V3 ℝ} (h : NonNeg t) (i : Fin 3) : 0 ≤ chan i t := by
  fin_cases i
  · exact h.1
  · exact h.2.1
  · exact h.2.2

theorem chan_smul (i : Fin 3) (k : ℝ) (t : V3 ℝ) : chan i (k • t) = k * chan i t := by fin_cases i <;> simp [chan]
theorem chan_mul (i : Fin 3) (a b : V3 ℝ) : chan i (a * b) = chan i a * chan i b := by fin_cases i <;> simp [chan]
theorem chan_zero (i : Fin 3) : chan i (0 : V3 ℝ) = 0 := by fin_cases i <;> rfl

/-- Averaged over the random number of roulette, anything proportional to the throughput is what it was before. -/
theorem roulette_average_of (q0 : ℝ) (hq0 : 0 ≤ q0) (hq1 : q0 < 1) (nv : ℕ) (t : V3 ℝ) (ht : NonNeg t) (i : Fin 3) (X : Option (Option (V3 ℝ)) → ℝ≥0∞) (Y : ℝ≥0∞) (h0 : X (some none) = 0)
    (hX : ∀ t', NonNeg t' → X (some (some t')) = ENNReal.ofReal (chan i t') * Y) :
    ∫⁻ u, X (rouletteAt q0 nv t u) ∂uniform1 = ENNReal.ofReal (chan i t) * Y := by
  unfold rouletteAt
  by_cases hn : nv > 5
  · simp only [if_pos hn]
    obtain ⟨a, b, c⟩ := threshold_range q0 hq0 hq1 t ht
    unfold roulette
    dsimp only
    set q := max q0 (1 - compMax t) with hq
    by_cases h : q = 1
    · have hz : t = 0 := c h
      have : ∀ᵐ u ∂uniform1, X (if u < q then some none else (divV t (1 - q)).map some) = 0 := by
        filter_upwards [uniform1_ae] with u hu
        rw [if_pos (by rw [h]; exact hu.2), h0]
      rw [lintegral_congr_ae this, lintegral_zero, hz, chan_zero, ENNReal.ofReal_zero, zero_mul]
    · have h1 : q < 1 := lt_of_le_of_ne b h
      have e : ∀ u : ℝ, X (if u < q then some none else (divV t (1 - q)).map some) = (Set.Ici q).indicator (fun _ => ENNReal.ofReal (1 / (1 - q)) * (ENNReal.ofReal (chan i t) * Y)) u := by
        intro u
        by_cases hu : u < q
        · rw [if_pos hu, h0, Set.indicator_of_notMem (by simpa using hu)]
        · rw [if_neg hu, Set.indicator_of_mem (by simpa using hu), divV, if_neg (by linarith), Option.map_some, hX _ (nonneg_smul (by apply one_div_nonneg.mpr; linarith) ht), chan_smul,
            ENNReal.ofReal_mul (by apply one_div_nonneg.mpr; linarith), mul_assoc]
      simp_rw [e]
      rw [lintegral_indicator measurableSet_Ici, setLIntegral_const]
      have hm : uniform1 (Set.Ici q) = ENNReal.ofReal (1 - q) := by
        unfold uniform1
        rw [Measure.restrict_apply measurableSet_Ici]
        have : Set.Ici q ∩ Set.Ico 0 1 = Set.Ico q 1 := by
          ext x; simp only [Set.mem_inter_iff, Set.mem_Ici, Set.mem_Ico]; constructor
          · rintro ⟨p, _, r⟩; exact ⟨p, r⟩
          · rintro ⟨p, r⟩; exact ⟨p, by linarith, r⟩
        rw [this, Real.volume_Ico]
      rw [hm, mul_comm (ENNReal.ofReal (1 / (1 - q))), mul_assoc, ← ENNReal.ofReal_mul (by apply one_div_nonneg.mpr; linarith), one_div, inv_mul_cancel₀ (by linarith), ENNReal.ofReal_one, mul_one]
  · simp only [if_neg hn, hX t ht, int1_const]

theorem roulette_average (nv : ℕ) (t : V3 ℝ) (ht : NonNeg t) (i : Fin 3) (X : Option (Option (V3 ℝ)) → ℝ≥0∞) (Y : ℝ≥0∞) (h0 : X (some none) = 0)
    (hX : ∀ t', NonNeg t' → X (some (some t')) = ENNReal.ofReal (chan i t') * Y) :
    ∫⁻ u, X (rouletteAt (2 / 10) nv t u) ∂uniform1 = ENNReal.ofReal (chan i t) * Y :=
  roulette_average_of (2 / 10) (by norm_num) (by norm_num) nv t ht i X Y h0 hX

/-- What roulette leaves is not negative. -/
theorem roulette_nonneg (q0 : ℝ) (hq1 : q0 < 1) (nv : ℕ) (t : V3 ℝ) (ht : NonNeg t) (a : ℝ) (ha : a < 1) (t' : V3 ℝ) (h : rouletteAt q0 nv t a = some (some t')) : NonNeg t' := by
  unfold rouletteAt at h
  by_cases hn : nv > 5
  · rw [if_pos hn] at h
    rcases C53_defined q0 hq1 t a ha with e | ⟨p, hp, _, _, e⟩
    · rw [e] at h; cases h
    · rw [e] at h; cases h
      exact nonneg_smul (one_div_nonneg.mpr hp.le) ht
  · rw [if_neg hn] at h; cases h; exact ht

/-! ### Scenes -/

/-- What is required of a scene, for one colour channel. `good sp wi`: sp can be a vertex of a path, seen from direction wi. -/
structure Sound (W : World) (Q : Query) (S : Optics) (i : Fin 3) (good : SI → V3 ℝ → Prop) : Prop where
  isect : S.isect = Q.isect
  emit : S.emit = emitted W i
  /-- scattering is estimated without bias -/
  unbiased : ∀ sp wi, good sp wi → ∀ c ∈ S.comps sp wi, ∀ L, Measurable L → ∫⁻ u, worth i L (sampleDirection W ⟨u.1, u.2.1, u.2.2⟩ sp wi c .EL) ∂uniform3 = ∫⁻ d, L d ∂S.scatter sp wi c
  /-- almost surely, sampling a direction is defined, with a nonnegative weight, and the point seen there is a good vertex or at infinity -/
  next : ∀ sp wi, good sp wi → ∀ c ∈ S.comps sp wi, ∀ᵐ u ∂uniform3, sampleDirection W ⟨u.1, u.2.1, u.2.2⟩ sp wi c .EL ≠ .undef ∧
    ∀ wo C, sampleDirection W ⟨u.1, u.2.1, u.2.2⟩ sp wi c .EL = .ok wo C → NonNeg C ∧ ∀ hit, Q.isect sp.geom.p wo = some hit →
      isLight W hit = some (W.lightAt hit.primitive).isSome ∧ (hit.geom.infinite = false → good hit (-wo))
  /-- components are selected without bias -/
  select : ∀ sp wi, good sp wi → (∀ u, 0 ≤ u → u < 1 → ∃ c w, sampleComponent W u sp wi = some (c, w) ∧ c ∈ S.comps sp wi ∧ 0 ≤ w) ∧
    ∀ F : ℕ → ℝ≥0∞, ∫⁻ u, compWorth F (sampleComponent W u sp wi) ∂uniform1 = ∑ c ∈ S.comps sp wi, F c
  /-- what arrives is a measurable function of the direction -/
  measurable : ∀ k sp wi, good sp wi → Measurable (S.incoming k sp)

/-- The end of an iteration: averaged over roulette and component selection, what the k following iterations add is proportional to the throughput. -/
theorem advance_average (W : World) (Q : Query) (S : Optics) (i : Fin 3) (good) (hS : Sound W Q S i good) (H : ℝ × ℝ → ℝ≥0∞) (body) (rs : Rnd → ℕ → Rnd) (k nv : ℕ) (V : SI → V3 ℝ → ℕ → ℝ≥0∞)
    (ih : ∀ rs st, good st.sp st.wi → st.comp ∈ S.comps st.sp st.wi → NonNeg st.thr →
      average k (nv + 1) rs (fun rs' => measured i H (walk W (rouletteAt (2 / 10)) body rs' k (nv + 1) st)) = ENNReal.ofReal (chan i st.thr) * (H st.rp * V st.sp st.wi st.comp))
    (h : Hop) (hthr : NonNeg h.thr) (hg : h.hit.geom.infinite = false → good h.hit (-h.wo)) (l : RaySampleU) (u : DirU) :
    ∫⁻ a, ∫⁻ b, after W (rouletteAt (2 / 10)) body i H (rs ⟨l, u, a, b⟩) k nv (advance W (rouletteAt (2 / 10)) nv h ⟨l, u, a, b⟩) ∂uniform1 ∂uniform1 =
      ENNReal.ofReal (chan i h.thr) * (H h.rp * if h.hit.geom.infinite then 0 else ∑ c ∈ S.comps h.hit (-h.wo), V h.hit (-h.wo) c) := by
  cases hi : h.hit.geom.infinite
  · have hg := hg hi
    simp only [Bool.false_eq_true, if_false]
    obtain ⟨hsel, hsum⟩ := hS.select _ _ hg
    -- averaged over component selection, for a given throughput
    let X : Option (Option (V3 ℝ)) → ℝ≥0∞ := fun o => match o with
      | none => ⊤
      | some none => 0
      | some (some t) => ENNReal.ofReal (chan i t) * (H h.rp * ∑ c ∈ S.comps h.hit (-h.wo), V h.hit (-h.wo) c)
    have e : ∀ a, 0 ≤ a → a < 1 → ∫⁻ b, after W (rouletteAt (2 / 10)) body i H (rs ⟨l, u, a, b⟩) k nv (advance W (rouletteAt (2 / 10)) nv h ⟨l, u, a, b⟩) ∂uniform1 = X (rouletteAt (2 / 10) nv h.thr a) := by
      intro a ha0 ha1
      unfold advance
      simp only [hi, Bool.false_eq_true, if_false]
      rcases hr : rouletteAt (2 / 10) nv h.thr a with _ | _ | t
      · exact int1_const _
      · exact int1_const _
      · have ht : NonNeg t := by
          unfold rouletteAt at hr
          by_cases hn : nv > 5
          · rw [if_pos hn] at hr
            rcases C53_defined (2 / 10) (by norm_num) h.thr a ha1 with e | ⟨p, hp, _, _, e⟩
            · rw [e] at hr; cases hr
            · rw [e] at hr; cases hr
              exact nonneg_smul (one_div_nonneg.mpr hp.le) hthr
          · rw [if_neg hn] at hr; cases hr; exact hthr
        have : ∀ᵐ b ∂uniform1, after W (rouletteAt (2 / 10)) body i H (rs ⟨l, u, a, b⟩) k nv ((sampleComponent W b h.hit (-h.wo)).map fun s => some ⟨h.hit, s.1, -h.wo, s.2 • t, h.rp⟩) =
            ENNReal.ofReal (chan i t) * compWorth (fun c => H h.rp * V h.hit (-h.wo) c) (sampleComponent W b h.hit (-h.wo)) := by
          filter_upwards [uniform1_ae] with b hb
          obtain ⟨c, w, hc, hm, hw⟩ := hsel b hb.1 hb.2
          rw [hc, Option.map_some]
          simp only [after, compWorth]
          rw [ih _ _ hg hm (nonneg_smul hw ht), chan_smul, ENNReal.ofReal_mul hw]
          ring
        dsimp only
        rw [lintegral_congr_ae this, lintegral_const_mul' _ _ ENNReal.ofReal_ne_top, hsum]
        simp only [X, Finset.mul_sum]
    rw [lintegral_congr_ae (uniform1_ae.mono fun a ha => e a ha.1 ha.2)]
    exact roulette_average nv h.thr hthr i X _ rfl fun t' _ => rfl
  · unfold advance
    simp [hi, after]

/-! ### One iteration of the path tracer -/

/-- The weight of the film position of a path that continues in direction d: the position of the primary ray, afterwards the position of the path. -/
noncomputable def onFilm (W : World) (H : ℝ × ℝ → ℝ≥0∞) (nv : ℕ) (rp : ℝ × ℝ) (d : V3 ℝ) : ℝ≥0∞ :=
  if nv = 1 then (match rasterAt W d with | some (some r) => H r | _ => 0) else H rp

/-- The emission of the point seen from sp in direction d. -/
noncomputable def Optics.seen (S : Optics) (sp : SI) (d : V3 ℝ) : ℝ≥0∞ := match S.isect sp.geom.p d with
  | none => 0
  | some hit => S.emit hit (-d)

/-- The point seen from sp in direction d, as a function V of that point, the direction and the component. -/
noncomputable def Optics.behindOf (S : Optics) (V : SI → V3 ℝ → ℕ → ℝ≥0∞) (sp : SI) (d : V3 ℝ) : ℝ≥0∞ := match S.isect sp.geom.p d with
  | none => 0
  | some hit => if hit.geom.infinite then 0 else ∑ c ∈ S.comps hit (-d), V hit (-d) c

/-- What is scattered by the point seen from sp in direction d. -/
noncomputable def Optics.behind (S : Optics) (k : ℕ) (sp : SI) (d : V3 ℝ) : ℝ≥0∞ := match S.isect sp.geom.p d with
  | none => 0
  | some hit => if hit.geom.infinite then 0 else ∑ c ∈ S.comps hit (-d), ∫⁻ d', S.incoming k hit d' ∂S.scatter hit (-d) c

theorem incoming_succ (S : Optics) (k : ℕ) (sp : SI) (d : V3 ℝ) : S.incoming (k + 1) sp d = S.seen sp d + S.behind k sp d := by
  rw [Optics.incoming, Optics.seen, Optics.behind]
  cases S.isect sp.geom.p d <;> simp

theorem seen_eq (S : Optics) (sp : SI) (d : V3 ℝ) : S.seen sp d = S.incoming 1 sp d := by
  rw [incoming_succ, Optics.behind]
  cases S.isect sp.geom.p d <;> simp [Optics.incoming]

theorem emitted_ne_top (W : World) (i : Fin 3) (sp : SI) (wo : V3 ℝ) : emitted W i sp wo ≠ ⊤ := by
  unfold emitted
  cases W.lightAt sp.primitive <;> simp

theorem Sound.seen_ne_top {W Q S i good} (hS : Sound W Q S i good) (sp : SI) (d : V3 ℝ) : S.seen sp d ≠ ⊤ := by
  unfold Optics.seen
  cases S.isect sp.geom.p d with
  | none => simp
  | some hit => dsimp only; rw [hS.emit]; exact emitted_ne_top W i hit _

theorem Sound.measurable_seen {W Q S i good} (hS : Sound W Q S i good) (sp : SI) (wi : V3 ℝ) (h : good sp wi) : Measurable (S.seen sp) := by
  have : S.seen sp = S.incoming 1 sp := funext (seen_eq S sp)
  rw [this]
  exact hS.measurable 1 sp wi h

theorem Sound.measurable_behind {W Q S i good} (hS : Sound W Q S i good) (k : ℕ) (sp : SI) (wi : V3 ℝ) (h : good sp wi) : Measurable (S.behind k sp) := by
  have : S.behind k sp = fun d => S.incoming (k + 1) sp d - S.seen sp d := funext fun d => by
    rw [incoming_succ, ENNReal.add_sub_cancel_left (hS.seen_ne_top sp d)]
  rw [this]
  exact (hS.measurable (k + 1) sp wi h).sub (hS.measurable_seen sp wi h)

/-- What an iteration adds after light sampling, with what follows. -/
noncomputable def rest (W : World) (Q : Query) (c : Cfg) (i : Fin 3) (H : ℝ × ℝ → ℝ≥0∞) (rs : ℕ → Rnd) (k nv : ℕ) (st : St) (r : Rnd) : ℝ≥0∞ :=
  match sampleDirection W r.dir st.sp st.wi st.comp .EL with
  | .undef => ⊤
  | .fail => 0
  | .ok wo w => match newRaster W nv st wo with
    | none => ⊤
    | some rp => match Q.isect st.sp.geom.p wo with
      | none => 0
      | some hit => measured i H (hitSplat W c nv st wo (st.thr * w) rp hit) +
          after W (rouletteAt (2 / 10)) (ptBody W Q c) i H rs k nv (advance W (rouletteAt (2 / 10)) nv ⟨hit, wo, st.thr * w, rp⟩ r)

theorem body_value (W : World) (Q : Query) (c : Cfg) (i : Fin 3) (H : ℝ × ℝ → ℝ≥0∞) (rs : ℕ → Rnd) (k nv : ℕ) (st : St) (r : Rnd) :
    (match ptBody W Q c nv st r with
        | none => ⊤
        | some (out, none) => measured i H (some out)
        | some (out, some h) => measured i H (some out) + after W (rouletteAt (2 / 10)) (ptBody W Q c) i H rs k nv (advance W (rouletteAt (2 / 10)) nv h r)) =
      measured i H (ptNee W Q c nv st r) + rest W Q c i H rs k nv st r := by
  unfold rest
  cases hn : ptNee W Q c nv st r with
  | none => simp [ptBody, hn, measured]
  | some a =>
    cases hd : sampleDirection W r.dir st.sp st.wi st.comp .EL with
    | undef => simp [ptBody, hn, hd]
    | fail => simp [ptBody, hn, hd]
    | ok wo w =>
      cases hr : newRaster W nv st wo with
      | none => simp [ptBody, hn, hd, hr]
      | some rp =>
        cases hq : Q.isect st.sp.geom.p wo with
        | none => simp [ptBody, hn, hd, hr, hq]
        | some hit =>
          cases hh : hitSplat W c nv st wo (st.thr * w) rp hit with
          | none => simp [ptBody, hn, hd, hr, hq, hh, measured]
          | some b =>
            simp only [ptBody, hn, hd, hr, hq, hh, Option.bind_eq_bind, Option.bind_some, Option.pure_def]
            rw [measured_append, add_assoc]

/-- One iteration: if the light samples add the share wn of the emission seen from the vertex and X, the hits add the share wh, the shares sum to 1, and the k following iterations add V at their first vertex,
    then all in all the iteration and the following ones add the throughput times X and the scattering of what arrives. -/
theorem step_average_of (W : World) (Q : Query) (S : Optics) (i : Fin 3) (good) (hS : Sound W Q S i good) (c : Cfg) (H : ℝ × ℝ → ℝ≥0∞) (rs : ℕ → Rnd) (k nv : ℕ) (V : SI → V3 ℝ → ℕ → ℝ≥0∞) (X : ℝ≥0∞) (st : St)
    (hg : good st.sp st.wi) (hc : st.comp ∈ S.comps st.sp st.wi) (hthr : NonNeg st.thr)
    (ih : ∀ rs st, good st.sp st.wi → st.comp ∈ S.comps st.sp st.wi → NonNeg st.thr →
      average k (nv + 1) rs (fun rs' => measured i H (walk W (rouletteAt (2 / 10)) (ptBody W Q c) rs' k (nv + 1) st)) = ENNReal.ofReal (chan i st.thr) * (H st.rp * V st.sp st.wi st.comp))
    (hV : Measurable (S.behindOf V st.sp))
    (hfilm : Measurable (onFilm W H nv st.rp))
    (hcam : nv = 1 → ∀ᵐ u ∂uniform3, ∀ wo C, sampleDirection W ⟨u.1, u.2.1, u.2.2⟩ st.sp st.wi st.comp .EL = .ok wo C → ∃ r, rasterAt W wo = some (some r))
    (wn wh : V3 ℝ → ℝ≥0∞) (hwm : Measurable wh) (hw : ∀ᵐ d ∂S.scatter st.sp st.wi st.comp, (wn d + wh d) * S.seen st.sp d = S.seen st.sp d)
    (hnee : averageLight (fun l => measured i H (ptNee W Q c nv st ⟨l, ⟨0, 0, 0⟩, 0, 0⟩)) = ENNReal.ofReal (chan i st.thr) * (∫⁻ d, onFilm W H nv st.rp d * (wn d * S.seen st.sp d) ∂S.scatter st.sp st.wi st.comp + X))
    (hhit : ∀ᵐ u ∂uniform3, ∀ wo C, sampleDirection W ⟨u.1, u.2.1, u.2.2⟩ st.sp st.wi st.comp .EL = .ok wo C → ∀ hit, Q.isect st.sp.geom.p wo = some hit → ∀ rp,
      measured i H (hitSplat W c nv st wo (st.thr * C) rp hit) = H rp * (ENNReal.ofReal (chan i (st.thr * C)) * (wh wo * S.emit hit (-wo)))) :
    average (k + 1) nv rs (fun rs' => measured i H (walk W (rouletteAt (2 / 10)) (ptBody W Q c) rs' (k + 1) nv st)) =
      ENNReal.ofReal (chan i st.thr) * (∫⁻ d, onFilm W H nv st.rp d * (S.seen st.sp d + S.behindOf V st.sp d) ∂S.scatter st.sp st.wi st.comp + X) := by
  rw [average_walk]
  simp_rw [body_value]
  have hLm : Measurable fun d => onFilm W H nv st.rp d * (wh d * S.seen st.sp d + S.behindOf V st.sp d) := hfilm.mul ((hwm.mul (hS.measurable_seen _ _ hg)).add hV)
  -- the part after light sampling
  have hrest : ∀ l, ∫⁻ u, ∫⁻ a, ∫⁻ b, rest W Q c i H (Function.update rs nv ⟨l, ⟨u.1, u.2.1, u.2.2⟩, a, b⟩) k nv st ⟨l, ⟨u.1, u.2.1, u.2.2⟩, a, b⟩ ∂uniform1 ∂uniform1 ∂uniform3 =
      ENNReal.ofReal (chan i st.thr) * ∫⁻ d, onFilm W H nv st.rp d * (wh d * S.seen st.sp d + S.behindOf V st.sp d) ∂S.scatter st.sp st.wi st.comp := by
    intro l
    have hcam' : ∀ᵐ u ∂uniform3, ∀ wo C, sampleDirection W ⟨u.1, u.2.1, u.2.2⟩ st.sp st.wi st.comp .EL = .ok wo C → ∃ r, newRaster W nv st wo = some r ∧ H r = onFilm W H nv st.rp wo := by
      by_cases h1 : nv = 1
      · filter_upwards [hcam h1] with u hu wo C ho
        obtain ⟨r, hr⟩ := hu wo C ho
        exact ⟨r, by simp [newRaster, h1, hr], by simp [onFilm, h1, hr]⟩
      · exact Filter.Eventually.of_forall fun u wo C _ => ⟨st.rp, by simp [newRaster, h1], by simp [onFilm, h1]⟩
    have key : ∀ᵐ u ∂uniform3, ∫⁻ a, ∫⁻ b, rest W Q c i H (Function.update rs nv ⟨l, ⟨u.1, u.2.1, u.2.2⟩, a, b⟩) k nv st ⟨l, ⟨u.1, u.2.1, u.2.2⟩, a, b⟩ ∂uniform1 ∂uniform1 =
        ENNReal.ofReal (chan i st.thr) * worth i (fun d => onFilm W H nv st.rp d * (wh d * S.seen st.sp d + S.behindOf V st.sp d)) (sampleDirection W ⟨u.1, u.2.1, u.2.2⟩ st.sp st.wi st.comp .EL) := by
      filter_upwards [hS.next _ _ hg _ hc, hcam', hhit] with u hu hr hh
      obtain ⟨hdef, hu⟩ := hu
      unfold rest
      dsimp only
      cases hd : sampleDirection W ⟨u.1, u.2.1, u.2.2⟩ st.sp st.wi st.comp .EL with
      | undef => exact absurd hd hdef
      | fail => simp [worth]
      | ok wo C =>
        obtain ⟨hC, hn⟩ := hu wo C hd
        obtain ⟨r, hr1, hr2⟩ := hr wo C hd
        dsimp only
        rw [hr1]
        dsimp only
        unfold worth Optics.seen Optics.behindOf
        dsimp only
        rw [hS.isect]
        cases hq : Q.isect st.sp.geom.p wo with
        | none => simp
        | some hit =>
          dsimp only
          have hthr' : NonNeg (st.thr * C) := ⟨mul_nonneg hthr.1 hC.1, mul_nonneg hthr.2.1 hC.2.1, mul_nonneg hthr.2.2 hC.2.2⟩
          simp_rw [lintegral_add_left measurable_const, int1_const]
          rw [advance_average W Q S i good hS H (ptBody W Q c) (fun r => Function.update rs nv r) k nv V ih ⟨hit, wo, st.thr * C, r⟩ hthr' (hn hit hq).2 l, hh wo C hd hit hq r, chan_mul,
            ENNReal.ofReal_mul (chan_nonneg hthr i), hr2]
          ring
    rw [lintegral_congr_ae key, lintegral_const_mul' _ _ ENNReal.ofReal_ne_top,
      hS.unbiased _ _ hg _ hc _ hLm]
  have hl : ∀ r : Rnd, ptNee W Q c nv st r = ptNee W Q c nv st ⟨r.light, ⟨0, 0, 0⟩, 0, 0⟩ := fun r => rfl
  unfold averageStep
  simp_rw [hl]
  simp_rw [lintegral_add_left measurable_const, int1_const, int3_const, hrest]
  rw [averageLight_add, hnee, ← mul_add, add_right_comm, ← lintegral_add_right _ hLm]
  congr 2
  refine lintegral_congr_ae ?_
  filter_upwards [hw] with d hd
  rw [← mul_add, ← add_assoc, ← add_mul, hd]

/-- In particular without X, if the following iterations add the scattering of what arrives. -/
theorem step_average (W : World) (Q : Query) (S : Optics) (i : Fin 3) (good) (hS : Sound W Q S i good) (c : Cfg) (H : ℝ × ℝ → ℝ≥0∞) (rs : ℕ → Rnd) (k nv : ℕ) (st : St)
    (hg : good st.sp st.wi) (hc : st.comp ∈ S.comps st.sp st.wi) (hthr : NonNeg st.thr)
    (ih : ∀ rs st, good st.sp st.wi → st.comp ∈ S.comps st.sp st.wi → NonNeg st.thr →
      average k (nv + 1) rs (fun rs' => measured i H (walk W (rouletteAt (2 / 10)) (ptBody W Q c) rs' k (nv + 1) st)) = ENNReal.ofReal (chan i st.thr) * (H st.rp * ∫⁻ d, S.incoming k st.sp d ∂S.scatter st.sp st.wi st.comp))
    (hfilm : Measurable (onFilm W H nv st.rp))
    (hcam : nv = 1 → ∀ᵐ u ∂uniform3, ∀ wo C, sampleDirection W ⟨u.1, u.2.1, u.2.2⟩ st.sp st.wi st.comp .EL = .ok wo C → ∃ r, rasterAt W wo = some (some r))
    (wn wh : V3 ℝ → ℝ≥0∞) (hwm : Measurable wh) (hw : ∀ᵐ d ∂S.scatter st.sp st.wi st.comp, (wn d + wh d) * S.seen st.sp d = S.seen st.sp d)
    (hnee : averageLight (fun l => measured i H (ptNee W Q c nv st ⟨l, ⟨0, 0, 0⟩, 0, 0⟩)) = ENNReal.ofReal (chan i st.thr) * ∫⁻ d, onFilm W H nv st.rp d * (wn d * S.seen st.sp d) ∂S.scatter st.sp st.wi st.comp)
    (hhit : ∀ᵐ u ∂uniform3, ∀ wo C, sampleDirection W ⟨u.1, u.2.1, u.2.2⟩ st.sp st.wi st.comp .EL = .ok wo C → ∀ hit, Q.isect st.sp.geom.p wo = some hit → ∀ rp,
      measured i H (hitSplat W c nv st wo (st.thr * C) rp hit) = H rp * (ENNReal.ofReal (chan i (st.thr * C)) * (wh wo * S.emit hit (-wo)))) :
    average (k + 1) nv rs (fun rs' => measured i H (walk W (rouletteAt (2 / 10)) (ptBody W Q c) rs' (k + 1) nv st)) =
      ENNReal.ofReal (chan i st.thr) * ∫⁻ d, onFilm W H nv st.rp d * S.incoming (k + 1) st.sp d ∂S.scatter st.sp st.wi st.comp := by
  have h := step_average_of W Q S i good hS c H rs k nv (fun sp wi c => ∫⁻ d, S.incoming k sp d ∂S.scatter sp wi c) 0 st hg hc hthr ih (hS.measurable_behind k _ _ hg) hfilm hcam wn wh hwm hw (by rw [add_zero]; exact hnee) hhit
  rw [h, add_zero]
  simp_rw [incoming_succ]
  rfl


/-! ### The walk -/

/-- C82. Without light sampling: averaged over all random numbers, what a walk of k iterations from a vertex adds to the film is its throughput times the scattering of what arrives at the vertex. -/
theorem C82_naive_walk (W : World) (Q : Query) (S : Optics) (i : Fin 3) (good) (hS : Sound W Q S i good) (c : Cfg) (hm : c.mode = .naive) (H : ℝ × ℝ → ℝ≥0∞) (rs : ℕ → Rnd) (k nv : ℕ) (hnv : 1 ≤ nv) (st : St)
    (hg : good st.sp st.wi) (hc : st.comp ∈ S.comps st.sp st.wi) (hthr : NonNeg st.thr) (hfilm : Measurable (onFilm W H nv st.rp))
    (hcam : nv = 1 → ∀ᵐ u ∂uniform3, ∀ wo C, sampleDirection W ⟨u.1, u.2.1, u.2.2⟩ st.sp st.wi st.comp .EL = .ok wo C → ∃ r, rasterAt W wo = some (some r)) :
    average k nv rs (fun rs' => measured i H (walk W (rouletteAt (2 / 10)) (ptBody W Q c) rs' k nv st)) =
      ENNReal.ofReal (chan i st.thr) * ∫⁻ d, onFilm W H nv st.rp d * S.incoming k st.sp d ∂S.scatter st.sp st.wi st.comp := by
  induction k generalizing nv rs st with
  | zero => simp [average, walk, measured, Optics.incoming]
  | succ k ih =>
    refine step_average W Q S i good hS c H rs k nv st hg hc hthr ?_ hfilm hcam (fun _ => 0) (fun _ => 1) measurable_const (Filter.Eventually.of_forall fun d => by simp) ?_ ?_
    · intro rs st hg hc hthr
      have h2 : ∀ d, onFilm W H (nv + 1) st.rp d = H st.rp := fun d => by rw [onFilm, if_neg (by omega)]
      rw [ih rs (nv + 1) (by omega) st hg hc hthr (by rw [funext h2]; exact measurable_const) (fun h => absurd h (by omega))]
      simp_rw [h2]
      rw [lintegral_const_mul _ (hS.measurable k _ _ hg)]
    · have : ∀ l, ptNee W Q c nv st ⟨l, ⟨0, 0, 0⟩, 0, 0⟩ = some [] := fun l => by unfold ptNee byNee; rw [if_pos hm]; rfl
      simp_rw [this]
      simp [measured, averageLight_const]
    · filter_upwards [hS.next _ _ hg _ hc] with u hu wo C hd hit hq rp
      obtain ⟨hC, hn⟩ := hu.2 wo C hd
      obtain ⟨hl, _⟩ := hn hit hq
      have hb : byNee W c nv st = some false := by simp [byNee, hm]
      rw [hS.emit]
      unfold hitSplat emitted
      rw [hb, hl]
      cases hL : W.lightAt hit.primitive with
      | none => simp [hm, measured]
      | some L =>
        have hthr' : 0 ≤ chan i (st.thr * C) := by rw [chan_mul]; exact mul_nonneg (chan_nonneg hthr i) (chan_nonneg hC i)
        simp [hm, measured, hitWeight, evalContrbDirection, asLight, hL]
        rw [chan_mul i (st.thr * C), ENNReal.ofReal_mul hthr']

end LM.Transport
