import Verif.Props.C82_Walk
/-
  C86: the random walk of the light tracer, averaged over its random numbers.
-/
namespace LM.Transport
open MeasureTheory LM LM.Surface LM.Material LM.Light LM.Path LM.Render LM.Solid
open scoped ENNReal

/-- The end of an iteration: averaged over roulette and component selection, what the k following iterations add is proportional to the throughput. -/
theorem advance_average_of (W : World) (i : Fin 3) (H : ℝ × ℝ → ℝ≥0∞) (body) (rs : Rnd → ℕ → Rnd) (k nv : ℕ) (h : Hop) (hthr : NonNeg h.thr) (comps : Finset ℕ) (V : ℕ → ℝ≥0∞)
    (hsel : h.hit.geom.infinite = false → (∀ u, 0 ≤ u → u < 1 → ∃ c w, sampleComponent W u h.hit (-h.wo) = some (c, w) ∧ c ∈ comps ∧ 0 ≤ w) ∧
      ∀ F : ℕ → ℝ≥0∞, ∫⁻ u, compWorth F (sampleComponent W u h.hit (-h.wo)) ∂uniform1 = ∑ c ∈ comps, F c)
    (ih : h.hit.geom.infinite = false → ∀ rs c t, c ∈ comps → NonNeg t →
      average k (nv + 1) rs (fun rs' => measured i H (walk W (rouletteAt (2 / 10)) body rs' k (nv + 1) ⟨h.hit, c, -h.wo, t, h.rp⟩)) = ENNReal.ofReal (chan i t) * V c) (l : RaySampleU) (u : DirU) :
    ∫⁻ a, ∫⁻ b, after W (rouletteAt (2 / 10)) body i H (rs ⟨l, u, a, b⟩) k nv (advance W (rouletteAt (2 / 10)) nv h ⟨l, u, a, b⟩) ∂uniform1 ∂uniform1 =
      ENNReal.ofReal (chan i h.thr) * if h.hit.geom.infinite then 0 else ∑ c ∈ comps, V c := by
  cases hi : h.hit.geom.infinite
  · simp only [Bool.false_eq_true, if_false]
    obtain ⟨hsel, hsum⟩ := hsel hi
    have ih := ih hi
    let X : Option (Option (V3 ℝ)) → ℝ≥0∞ := fun o => match o with
      | none => ⊤
      | some none => 0
      | some (some t) => ENNReal.ofReal (chan i t) * ∑ c ∈ comps, V c
    have e : ∀ a, 0 ≤ a → a < 1 → ∫⁻ b, after W (rouletteAt (2 / 10)) body i H (rs ⟨l, u, a, b⟩) k nv (advance W (rouletteAt (2 / 10)) nv h ⟨l, u, a, b⟩) ∂uniform1 = X (rouletteAt (2 / 10) nv h.thr a) := by
      intro a ha0 ha1
      unfold advance
      simp only [hi, Bool.false_eq_true, if_false]
      rcases hr : rouletteAt (2 / 10) nv h.thr a with _ | _ | t
      · exact int1_const _
      · exact int1_const _
      · have ht : NonNeg t := roulette_nonneg (2 / 10) (by norm_num) nv h.thr hthr a ha1 t hr
        have : ∀ᵐ b ∂uniform1, after W (rouletteAt (2 / 10)) body i H (rs ⟨l, u, a, b⟩) k nv ((sampleComponent W b h.hit (-h.wo)).map fun s => some ⟨h.hit, s.1, -h.wo, s.2 • t, h.rp⟩) =
            ENNReal.ofReal (chan i t) * compWorth V (sampleComponent W b h.hit (-h.wo)) := by
          filter_upwards [uniform1_ae] with b hb
          obtain ⟨c, w, hc, hm, hw⟩ := hsel b hb.1 hb.2
          rw [hc, Option.map_some]
          simp only [after, compWorth]
          rw [ih _ _ _ hm (nonneg_smul hw ht), chan_smul, ENNReal.ofReal_mul hw]
          ring
        dsimp only
        rw [lintegral_congr_ae this, lintegral_const_mul' _ _ ENNReal.ofReal_ne_top, hsum]
    rw [lintegral_congr_ae (uniform1_ae.mono fun a ha => e a ha.1 ha.2)]
    exact roulette_average nv h.thr hthr i X _ rfl fun t' _ => rfl
  · unfold advance
    simp [hi, after]

/-- What a path carrying light records at the next point, and at those after it: `V` at the point that sp sees in direction d. -/
noncomputable def ahead (S : Optics) (V : SI → V3 ℝ → ℕ → ℝ≥0∞) (sp : SI) (d : V3 ℝ) : ℝ≥0∞ := match S.isect sp.geom.p d with
  | none => 0
  | some hit => if hit.geom.infinite then 0 else ∑ c ∈ S.comps hit (-d), V hit (-d) c

/-- What the sensor records of light that arrives at sp from wi and is scattered by component c, within k iterations. -/
noncomputable def onward (S : Optics) (sensor : SI → V3 ℝ → ℕ → ℝ≥0∞) : ℕ → SI → V3 ℝ → ℕ → ℝ≥0∞
  | 0, _, _, _ => 0
  | k + 1, sp, wi, c => sensor sp wi c + ∫⁻ d, ahead S (onward S sensor k) sp d ∂S.scatter sp wi c

/-- What is required of a scene to trace light. `S.scatter` is the scattering of light that arrives from wi (transport mode LE), `sensor` what the connection to the camera records. -/
structure SoundLight (W : World) (Q : Query) (S : Optics) (i : Fin 3) (H : ℝ × ℝ → ℝ≥0∞) (sensor : SI → V3 ℝ → ℕ → ℝ≥0∞) (good : SI → V3 ℝ → Prop) : Prop where
  isect : S.isect = Q.isect
  unbiased : ∀ sp wi, good sp wi → ∀ c ∈ S.comps sp wi, ∀ L, Measurable L → ∫⁻ u, worth i L (sampleDirection W ⟨u.1, u.2.1, u.2.2⟩ sp wi c .LE) ∂uniform3 = ∫⁻ d, L d ∂S.scatter sp wi c
  next : ∀ sp wi, good sp wi → ∀ c ∈ S.comps sp wi, ∀ᵐ u ∂uniform3, sampleDirection W ⟨u.1, u.2.1, u.2.2⟩ sp wi c .LE ≠ .undef ∧
    ∀ wo C, sampleDirection W ⟨u.1, u.2.1, u.2.2⟩ sp wi c .LE = .ok wo C → NonNeg C ∧ V3.dot wo wo = 1 ∧ ∀ hit, Q.isect sp.geom.p wo = some hit → hit.geom.infinite = false → good hit (-wo)
  unit : ∀ sp wi, good sp wi → ∀ c ∈ S.comps sp wi, ∀ᵐ d ∂S.scatter sp wi c, V3.dot d d = 1
  select : ∀ sp wi, good sp wi → (∀ u, 0 ≤ u → u < 1 → ∃ c w, sampleComponent W u sp wi = some (c, w) ∧ c ∈ S.comps sp wi ∧ 0 ≤ w) ∧
    ∀ F : ℕ → ℝ≥0∞, ∫⁻ u, compWorth F (sampleComponent W u sp wi) ∂uniform1 = ∑ c ∈ S.comps sp wi, F c
  measurable : ∀ k sp wi, good sp wi → ∃ L, Measurable L ∧ ∀ d, V3.dot d d = 1 → ahead S (onward S sensor k) sp d = L d
  sensor : ∀ nv st r, good st.sp st.wi → st.comp ∈ S.comps st.sp st.wi → NonNeg st.thr → measured i H (ltNee W Q nv st r) = ENNReal.ofReal (chan i st.thr) * sensor st.sp st.wi st.comp

/-- What an iteration adds after the connection to the camera, with what follows. -/
noncomputable def ltRest (W : World) (Q : Query) (i : Fin 3) (H : ℝ × ℝ → ℝ≥0∞) (rs : ℕ → Rnd) (k nv : ℕ) (st : St) (r : Rnd) : ℝ≥0∞ :=
  match sampleDirection W r.dir st.sp st.wi st.comp .LE with
  | .undef => ⊤
  | .fail => 0
  | .ok wo w => match Q.isect st.sp.geom.p wo with
    | none => 0
    | some hit => after W (rouletteAt (2 / 10)) (ltBody W Q) i H rs k nv (advance W (rouletteAt (2 / 10)) nv ⟨hit, wo, st.thr * w, st.rp⟩ r)

theorem ltBody_value (W : World) (Q : Query) (i : Fin 3) (H : ℝ × ℝ → ℝ≥0∞) (rs : ℕ → Rnd) (k nv : ℕ) (st : St) (r : Rnd) :
    (match ltBody W Q nv st r with
        | none => ⊤
        | some (out, none) => measured i H (some out)
        | some (out, some h) => measured i H (some out) + after W (rouletteAt (2 / 10)) (ltBody W Q) i H rs k nv (advance W (rouletteAt (2 / 10)) nv h r)) =
      measured i H (ltNee W Q nv st r) + ltRest W Q i H rs k nv st r := by
  unfold ltRest
  cases hn : ltNee W Q nv st r with
  | none => simp [ltBody, hn, measured]
  | some a =>
    cases hd : sampleDirection W r.dir st.sp st.wi st.comp .LE with
    | undef => simp [ltBody, hn, hd]
    | fail => simp [ltBody, hn, hd]
    | ok wo w =>
      cases hq : Q.isect st.sp.geom.p wo with
      | none => simp [ltBody, hn, hd, hq]
      | some hit => simp [ltBody, hn, hd, hq]

/-- Averaged over all random numbers, what a walk of k iterations of the light tracer adds to the film. -/
theorem lt_walk (W : World) (Q : Query) (S : Optics) (i : Fin 3) (H : ℝ × ℝ → ℝ≥0∞) (sensor) (good) (hS : SoundLight W Q S i H sensor good) (rs : ℕ → Rnd) (k nv : ℕ) (st : St)
    (hg : good st.sp st.wi) (hc : st.comp ∈ S.comps st.sp st.wi) (hthr : NonNeg st.thr) :
    average k nv rs (fun rs' => measured i H (walk W (rouletteAt (2 / 10)) (ltBody W Q) rs' k nv st)) = ENNReal.ofReal (chan i st.thr) * onward S sensor k st.sp st.wi st.comp := by
  induction k generalizing nv rs st with
  | zero => simp [average, walk, measured, onward]
  | succ k ih =>
    rw [average_walk]
    refine (congrArg averageStep (funext fun r => Eq.trans ?_ (ltBody_value W Q i H (Function.update rs nv r) k nv st r))).trans ?_
    · rcases ltBody W Q nv st r with _ | ⟨out, _ | h⟩ <;> rfl
    obtain ⟨L, hm, hL⟩ := hS.measurable k _ _ hg
    have hrest : ∀ l, ∫⁻ u, ∫⁻ a, ∫⁻ b, ltRest W Q i H (Function.update rs nv ⟨l, ⟨u.1, u.2.1, u.2.2⟩, a, b⟩) k nv st ⟨l, ⟨u.1, u.2.1, u.2.2⟩, a, b⟩ ∂uniform1 ∂uniform1 ∂uniform3 =
        ENNReal.ofReal (chan i st.thr) * ∫⁻ d, ahead S (onward S sensor k) st.sp d ∂S.scatter st.sp st.wi st.comp := by
      intro l
      have key : ∀ᵐ u ∂uniform3, ∫⁻ a, ∫⁻ b, ltRest W Q i H (Function.update rs nv ⟨l, ⟨u.1, u.2.1, u.2.2⟩, a, b⟩) k nv st ⟨l, ⟨u.1, u.2.1, u.2.2⟩, a, b⟩ ∂uniform1 ∂uniform1 =
          ENNReal.ofReal (chan i st.thr) * worth i L (sampleDirection W ⟨u.1, u.2.1, u.2.2⟩ st.sp st.wi st.comp .LE) := by
        filter_upwards [hS.next _ _ hg _ hc] with u hu
        obtain ⟨hdef, hu⟩ := hu
        unfold ltRest
        dsimp only
        cases hd : sampleDirection W ⟨u.1, u.2.1, u.2.2⟩ st.sp st.wi st.comp .LE with
        | undef => exact absurd hd hdef
        | fail => simp [worth]
        | ok wo C =>
          obtain ⟨hC, hun, hn⟩ := hu wo C hd
          dsimp only
          unfold worth
          dsimp only
          rw [← hL wo hun]
          unfold ahead
          rw [hS.isect]
          cases hq : Q.isect st.sp.geom.p wo with
          | none => simp
          | some hit =>
            dsimp only
            have hthr' : NonNeg (st.thr * C) := ⟨mul_nonneg hthr.1 hC.1, mul_nonneg hthr.2.1 hC.2.1, mul_nonneg hthr.2.2 hC.2.2⟩
            rw [advance_average_of W i H (ltBody W Q) (fun r => Function.update rs nv r) k nv ⟨hit, wo, st.thr * C, st.rp⟩ hthr' (S.comps hit (-wo)) (onward S sensor k hit (-wo))
              (fun hi => hS.select _ _ (hn hit hq hi)) (fun hi rs' c t hc' ht => ih rs' (nv + 1) ⟨hit, c, -wo, t, st.rp⟩ (hn hit hq hi) hc' ht) l, chan_mul, ENNReal.ofReal_mul (chan_nonneg hthr i)]
            ring
      rw [lintegral_congr_ae key, lintegral_const_mul' _ _ ENNReal.ofReal_ne_top, hS.unbiased _ _ hg _ hc _ hm,
        lintegral_congr_ae ((hS.unit _ _ hg _ hc).mono fun d hd => (hL d hd).symm)]
    unfold averageStep
    simp_rw [hS.sensor nv st _ hg hc hthr]
    simp_rw [lintegral_add_left measurable_const, int1_const, int3_const, hrest]
    rw [averageLight_const, ← mul_add]
    rfl

end LM.Transport
