import Verif.Props.C82_Walk
namespace LM.Transport
open MeasureTheory LM LM.Surface LM.Material LM.Light LM.Path LM.Render LM.Solid
open scoped ENNReal

/-- For almost all random numbers for light sampling. -/
def Almost (P : RaySampleU → Prop) : Prop := ∀ᵐ s ∂uniform1, ∀ᵐ p ∂uniform3, ∀ᵐ q ∂uniform2, P ⟨p.1, p.2.1, s, p.2.2, q.1, q.2⟩

theorem int2_ae : ∀ᵐ q : ℝ × ℝ ∂uniform2, (0 ≤ q.1 ∧ q.1 < 1) ∧ (0 ≤ q.2 ∧ q.2 < 1) := by
  unfold uniform2
  exact (ae_restrict_mem (measurableSet_Ico.prod measurableSet_Ico)).mono fun q h => ⟨h.1, h.2⟩
theorem int3_ae : ∀ᵐ q : ℝ × ℝ × ℝ ∂uniform3, (0 ≤ q.1 ∧ q.1 < 1) ∧ (0 ≤ q.2.1 ∧ q.2.1 < 1) ∧ (0 ≤ q.2.2 ∧ q.2.2 < 1) := by
  unfold uniform3
  exact (ae_restrict_mem (measurableSet_Ico.prod (measurableSet_Ico.prod measurableSet_Ico))).mono fun q h => ⟨h.1, h.2.1, h.2.2⟩

theorem averageLight_congr {f g : RaySampleU → ℝ≥0∞} (h : Almost fun u => f u = g u) : averageLight f = averageLight g := by
  unfold averageLight
  exact lintegral_congr_ae (Filter.Eventually.mono h fun s hs => lintegral_congr_ae (hs.mono fun p hp => lintegral_congr_ae hp))

theorem averageLight_mul (k : ℝ≥0∞) (hk : k ≠ ⊤) (f : RaySampleU → ℝ≥0∞) : averageLight (fun u => k * f u) = k * averageLight f := by
  unfold averageLight
  simp_rw [lintegral_const_mul' k _ hk]

/-- One channel of a light sample at sp, weighted with a function of the direction towards the light; nothing if the light is not visible. -/
noncomputable def lightWorth (Q : Query) (sp : SI) (i : Fin 3) (F : V3 ℝ → ℝ≥0∞) : SRes → ℝ≥0∞
  | .ok spL woL wL => if Q.visible sp spL then ENNReal.ofReal (chan i wL) * F (-woL) else 0
  | .fail => 0
  | .undef => ⊤

/-- For each vertex: the measure of directions with respect to which densities are given, the scattering function, the densities of sampling a direction by scattering and by sampling lights. -/
structure Connection where
  angle : SI → Measure (V3 ℝ)
  bsdf : SI → V3 ℝ → ℕ → V3 ℝ → V3 ℝ
  pdfBsdf : SI → V3 ℝ → ℕ → V3 ℝ → ℝ
  pdfLight : SI → V3 ℝ → ℝ

/-- What is required of light sampling at a vertex. -/
structure Connects (W : World) (Q : Query) (S : Optics) (N : Connection) (i : Fin 3) (sp : SI) : Prop where
  /-- averaged over its random numbers, a light sample estimates the emission of what is seen from the vertex -/
  light : ∀ F, Measurable F → averageLight (fun u => lightWorth Q sp i F (sampleDirect W u sp .LE)) = ∫⁻ d, S.seen sp d * F d ∂N.angle sp
  /-- light samples are defined, and the density of a visible one is that reported for the direction -/
  sampled : Almost fun u => sampleDirect W u sp .LE ≠ .undef ∧ ∀ spL woL wL, sampleDirect W u sp .LE = .ok spL woL wL → Q.visible sp spL = true →
    V3.dot woL woL = 1 ∧ NonNeg wL ∧ isSpecularComponent W spL 0 = some false ∧ spL.geom.degenerated = false ∧ pdfDirect W sp spL woL true = some (N.pdfLight sp (-woL))
  measurable_pdf : Measurable (N.pdfLight sp)
  nonneg_pdf : ∀ d, 0 ≤ N.pdfLight sp d

/-- What is required of a non-specular component of a vertex. -/
structure Scatters (W : World) (Q : Query) (S : Optics) (N : Connection) (i : Fin 3) (sp : SI) (wi : V3 ℝ) (c : ℕ) : Prop where
  scatter : S.scatter sp wi c = (N.angle sp).withDensity fun d => ENNReal.ofReal (chan i (N.bsdf sp wi c d))
  unit : ∀ᵐ d ∂N.angle sp, V3.dot d d = 1
  measurable_bsdf : Measurable (N.bsdf sp wi c)
  measurable_pdf : Measurable (N.pdfBsdf sp wi c)
  eval : ∀ d, V3.dot d d = 1 → evalContrbDirection W sp wi d c .EL true = some (N.bsdf sp wi c d) ∧ NonNeg (N.bsdf sp wi c d)
  pdf : ∀ d, V3.dot d d = 1 → pdfDirection W sp wi d c true = some (N.pdfBsdf sp wi c d) ∧ 0 ≤ N.pdfBsdf sp wi c d ∧ (N.bsdf sp wi c d ≠ 0 → 0 < N.pdfBsdf sp wi c d)
  /-- the density reported for a light that is hit is that reported for the direction -/
  hit : ∀ᵐ u ∂uniform3, ∀ wo C, sampleDirection W ⟨u.1, u.2.1, u.2.2⟩ sp wi c .EL = .ok wo C → V3.dot wo wo = 1 ∧ ∀ h, Q.isect sp.geom.p wo = some h → (W.lightAt h.primitive).isSome →
    pdfDirect W sp (asLight h) (-wo) true = some (N.pdfLight sp wo)

/-- What is required of a scene for light sampling. -/
structure NeeSound (W : World) (Q : Query) (S : Optics) (N : Connection) (i : Fin 3) (good : SI → V3 ℝ → Prop) : Prop where
  specular : ∀ sp wi, good sp wi → ∀ c ∈ S.comps sp wi, ∃ b, isSpecularComponent W sp c = some b ∧ (b = false → Connects W Q S N i sp ∧ Scatters W Q S N i sp wi c)

/-! ### Shares of the two techniques -/

/-- The share of light samples and of hits in direction d, if the light can be sampled. -/
noncomputable def neeShare (N : Connection) (m : Mode) (sp : SI) (wi : V3 ℝ) (c : ℕ) (d : V3 ℝ) : ℝ≥0∞ :=
  if m = .nee then 1 else ENNReal.ofReal (MathF.balanceHeuristic (N.pdfLight sp d) (N.pdfBsdf sp wi c d))
noncomputable def hitShare (N : Connection) (m : Mode) (sp : SI) (wi : V3 ℝ) (c : ℕ) (d : V3 ℝ) : ℝ≥0∞ :=
  if m = .nee then 0 else ENNReal.ofReal (MathF.balanceHeuristic (N.pdfBsdf sp wi c d) (N.pdfLight sp d))

theorem balance_nonneg {a b : ℝ} (ha : 0 ≤ a) (hb : 0 ≤ b) : 0 ≤ MathF.balanceHeuristic a b := by
  unfold MathF.balanceHeuristic
  split <;> positivity

theorem measurable_balance {f g : V3 ℝ → ℝ} (hf : Measurable f) (hg : Measurable g) : Measurable fun d => MathF.balanceHeuristic (f d) (g d) := by
  unfold MathF.balanceHeuristic
  refine Measurable.ite ?_ measurable_const (hf.div (hf.add hg))
  exact ((measurableSet_singleton (0 : ℝ)).preimage hf).inter ((measurableSet_singleton (0 : ℝ)).preimage hg)

theorem measurable_shares (N : Connection) (m : Mode) (sp : SI) (wi : V3 ℝ) (c : ℕ) (h1 : Measurable (N.pdfLight sp)) (h2 : Measurable (N.pdfBsdf sp wi c)) :
    Measurable (neeShare N m sp wi c) ∧ Measurable (hitShare N m sp wi c) := by
  unfold neeShare hitShare
  cases m <;> simp only [reduceCtorEq, if_false, if_true]
  · exact ⟨(measurable_balance h1 h2).ennreal_ofReal, (measurable_balance h2 h1).ennreal_ofReal⟩
  · exact ⟨measurable_const, measurable_const⟩
  · exact ⟨(measurable_balance h1 h2).ennreal_ofReal, (measurable_balance h2 h1).ennreal_ofReal⟩

theorem shares_sum (N : Connection) (m : Mode) (sp : SI) (wi : V3 ℝ) (c : ℕ) (d : V3 ℝ) (h1 : 0 ≤ N.pdfLight sp d) (h2 : 0 < N.pdfBsdf sp wi c d) : neeShare N m sp wi c d + hitShare N m sp wi c d = 1 := by
  unfold neeShare hitShare
  by_cases hm : m = .nee
  · simp [hm]
  · rw [if_neg hm, if_neg hm, ← ENNReal.ofReal_add (balance_nonneg h1 h2.le) (balance_nonneg h2.le h1), ← ENNReal.ofReal_one]
    congr 1
    unfold MathF.balanceHeuristic
    rw [if_neg (fun h => h2.ne' h.2), if_neg (fun h => h2.ne' h.1)]
    have : N.pdfLight sp d + N.pdfBsdf sp wi c d ≠ 0 := by linarith
    have : N.pdfBsdf sp wi c d + N.pdfLight sp d ≠ 0 := by linarith
    field_simp
    ring

theorem shares_ae {W Q S N i sp wi c} (hC : ∀ d, 0 ≤ N.pdfLight sp d) (hs : Scatters W Q S N i sp wi c) (m : Mode) :
    ∀ᵐ d ∂S.scatter sp wi c, (neeShare N m sp wi c d + hitShare N m sp wi c d) * S.seen sp d = S.seen sp d := by
  have hbm : Measurable fun d => ENNReal.ofReal (chan i (N.bsdf sp wi c d)) := ((measurable_chan i).comp hs.measurable_bsdf).ennreal_ofReal
  rw [hs.scatter, ae_withDensity_iff hbm]
  filter_upwards [hs.unit] with d hd hne
  rw [shares_sum N m sp wi c d (hC d) ((hs.pdf d hd).2.2 fun h => hne (by rw [h, chan_zero, ENNReal.ofReal_zero])), one_mul]

/-! ### The two techniques -/

theorem chan_pos {i : Fin 3} {t : V3 ℝ} (h : chan i t ≠ 0) : t ≠ 0 := fun e => h (by rw [e, chan_zero])

open Classical in
theorem neeSplat_at (W : World) (Q : Query) (c : Cfg) (nv : ℕ) (st : St) (spL : SI) (woL wL : V3 ℝ) (o : Option (ℝ × ℝ)) (hv : Q.visible st.sp spL = true)
    (ho : nv = 1 ∧ rasterAt W (-woL) = some o ∨ nv ≠ 1 ∧ o = some st.rp) :
    neeSplat W Q c nv st spL woL wL = match (generalizing := false) o with
      | none => some []
      | some rp => (evalContrbDirection W st.sp st.wi (-woL) st.comp .EL true).bind fun fs => if fs = 0 then some [] else
        (neeWeight W c st spL woL).bind fun w => some [⟨.nee, nv + 1, rp, w • (st.thr * fs * wL)⟩] := by
  unfold neeSplat
  rcases ho with ⟨hn, ho⟩ | ⟨hn, ho⟩
  · simp only [hv, hn, ho, Bool.not_true, Bool.false_eq_true, if_false, if_true, Option.bind_eq_bind, Option.bind_some]
    rfl
  · subst ho
    simp only [hv, hn, Bool.not_true, Bool.false_eq_true, if_false, Option.bind_eq_bind]
    rfl

/-- What light sampling adds at a non-specular vertex. -/
theorem nee_value (W : World) (Q : Query) (S : Optics) (N : Connection) (i : Fin 3) (c : Cfg) (H : ℝ × ℝ → ℝ≥0∞) (nv : ℕ) (st : St) (hC : Connects W Q S N i st.sp) (hs : Scatters W Q S N i st.sp st.wi st.comp)
    (hthr : NonNeg st.thr) (hras : nv = 1 → ∀ d, ∃ o, rasterAt W d = some o) (hb : byNee W c nv st = some true) (u : RaySampleU)
    (hu : sampleDirect W u st.sp .LE ≠ .undef ∧ ∀ spL woL wL, sampleDirect W u st.sp .LE = .ok spL woL wL → Q.visible st.sp spL = true →
      V3.dot woL woL = 1 ∧ NonNeg wL ∧ isSpecularComponent W spL 0 = some false ∧ spL.geom.degenerated = false ∧ pdfDirect W st.sp spL woL true = some (N.pdfLight st.sp (-woL))) :
    measured i H (ptNee W Q c nv st ⟨u, ⟨0, 0, 0⟩, 0, 0⟩) =
      ENNReal.ofReal (chan i st.thr) * lightWorth Q st.sp i (fun d => onFilm W H nv st.rp d * (neeShare N c.mode st.sp st.wi st.comp d * ENNReal.ofReal (chan i (N.bsdf st.sp st.wi st.comp d)))) (sampleDirect W u st.sp .LE) := by
  obtain ⟨hdef, hok⟩ := hu
  unfold ptNee
  rw [hb]
  simp only [Option.bind_eq_bind, Option.bind_some, if_true]
  cases hd : sampleDirect W u st.sp .LE with
  | undef => exact absurd hd hdef
  | fail => simp [lightWorth, measured]
  | ok spL woL wL =>
    dsimp only [lightWorth]
    cases hv : Q.visible st.sp spL with
    | false => simp [neeSplat, hv, measured]
    | true =>
      obtain ⟨h1, h2, h3, h4, h5⟩ := hok spL woL wL hd hv
      have hu1 : V3.dot (-woL) (-woL) = 1 := by rw [← h1]; simp [V3.dot]
      obtain ⟨e1, e2⟩ := hs.eval _ hu1
      obtain ⟨p1, p2, p3⟩ := hs.pdf _ hu1
      have hrp : ∃ o, (nv = 1 ∧ rasterAt W (-woL) = some o ∨ nv ≠ 1 ∧ o = some st.rp) ∧ (o = none → onFilm W H nv st.rp (-woL) = 0) ∧ ∀ r, o = some r → onFilm W H nv st.rp (-woL) = H r := by
        by_cases hn : nv = 1
        · obtain ⟨o, ho⟩ := hras hn (-woL)
          exact ⟨o, .inl ⟨hn, ho⟩, fun h => by simp [onFilm, hn, ho, h], fun r h => by simp [onFilm, hn, ho, h]⟩
        · exact ⟨some st.rp, .inr ⟨hn, rfl⟩, by simp, fun r h => by cases h; simp [onFilm, hn]⟩
      obtain ⟨o, ho1, ho2, ho3⟩ := hrp
      rw [neeSplat_at W Q c nv st spL woL wL o hv ho1]
      simp only [if_true]
      cases o with
      | none => simp [measured, ho2 rfl]
      | some r =>
        rw [ho3 r rfl]
        dsimp only
        rw [e1, Option.bind_some]
        by_cases hz : N.bsdf st.sp st.wi st.comp (-woL) = 0
        · simp [hz, measured, chan_zero]
        · have hw : ∃ w, neeWeight W c st spL woL = some w ∧ 0 ≤ w ∧ ENNReal.ofReal w = neeShare N c.mode st.sp st.wi st.comp (-woL) := by
            unfold neeWeight neeShare
            by_cases hm : c.mode = .nee
            · exact ⟨1, by rw [if_pos hm], zero_le_one, by rw [if_pos hm, ENNReal.ofReal_one]⟩
            · refine ⟨_, ?_, balance_nonneg (hC.nonneg_pdf (-woL)) p2, by rw [if_neg hm]⟩
              rw [if_neg hm]
              simp [h3, h4, h5, p1]
          obtain ⟨w, hw1, hw2, hw3⟩ := hw
          rw [if_neg hz, hw1, Option.bind_some]
          simp only [measured, List.map_cons, List.map_nil, List.sum_cons, List.sum_nil, add_zero]
          rw [chan_smul, chan_mul, chan_mul, ENNReal.ofReal_mul hw2, ENNReal.ofReal_mul (mul_nonneg (chan_nonneg hthr i) (chan_nonneg e2 i)), ENNReal.ofReal_mul (chan_nonneg hthr i), hw3]
          ring

/-- Averaged over the light samples: the share of the emission seen from the vertex, scattered. -/
theorem nee_average (W : World) (Q : Query) (S : Optics) (N : Connection) (i : Fin 3) (good) (hS : Sound W Q S i good) (c : Cfg) (H : ℝ × ℝ → ℝ≥0∞) (nv : ℕ) (st : St) (hg : good st.sp st.wi)
    (hC : Connects W Q S N i st.sp) (hs : Scatters W Q S N i st.sp st.wi st.comp)
    (hthr : NonNeg st.thr) (hfilm : Measurable (onFilm W H nv st.rp)) (hras : nv = 1 → ∀ d, ∃ o, rasterAt W d = some o) (hb : byNee W c nv st = some true) :
    averageLight (fun l => measured i H (ptNee W Q c nv st ⟨l, ⟨0, 0, 0⟩, 0, 0⟩)) =
      ENNReal.ofReal (chan i st.thr) * ∫⁻ d, onFilm W H nv st.rp d * (neeShare N c.mode st.sp st.wi st.comp d * S.seen st.sp d) ∂S.scatter st.sp st.wi st.comp := by
  have hsm := (measurable_shares N c.mode st.sp st.wi st.comp hC.measurable_pdf hs.measurable_pdf).1
  have hbm : Measurable fun d => ENNReal.ofReal (chan i (N.bsdf st.sp st.wi st.comp d)) := ((measurable_chan i).comp hs.measurable_bsdf).ennreal_ofReal
  have hF : Measurable fun d => onFilm W H nv st.rp d * (neeShare N c.mode st.sp st.wi st.comp d * ENNReal.ofReal (chan i (N.bsdf st.sp st.wi st.comp d))) := hfilm.mul (hsm.mul hbm)
  have hG : Measurable fun d => onFilm W H nv st.rp d * (neeShare N c.mode st.sp st.wi st.comp d * S.seen st.sp d) := hfilm.mul (hsm.mul (hS.measurable_seen _ _ hg))
  rw [averageLight_congr (g := fun u => ENNReal.ofReal (chan i st.thr) * lightWorth Q st.sp i (fun d => onFilm W H nv st.rp d * (neeShare N c.mode st.sp st.wi st.comp d * ENNReal.ofReal (chan i (N.bsdf st.sp st.wi st.comp d))))
      (sampleDirect W u st.sp .LE)) (Filter.Eventually.mono hC.sampled fun s hs1 => hs1.mono fun p hp => hp.mono fun q hq => nee_value W Q S N i c H nv st hC hs hthr hras hb _ hq), averageLight_mul _ ENNReal.ofReal_ne_top, hC.light _ hF, hs.scatter, lintegral_withDensity_eq_lintegral_mul _ hbm hG]
  congr 1
  refine lintegral_congr fun d => ?_
  simp only [Pi.mul_apply]
  ring

/-- What a hit adds at a vertex where lights can be sampled. -/
theorem hit_value (W : World) (Q : Query) (S : Optics) (N : Connection) (i : Fin 3) (good) (hS : Sound W Q S i good) (c : Cfg) (hm : c.mode ≠ .naive) (H : ℝ × ℝ → ℝ≥0∞) (nv : ℕ) (st : St) (hg : good st.sp st.wi)
    (hc : st.comp ∈ S.comps st.sp st.wi) (hC : ∀ d, 0 ≤ N.pdfLight st.sp d) (hs : Scatters W Q S N i st.sp st.wi st.comp) (hthr : NonNeg st.thr) (hb : byNee W c nv st = some true) :
    ∀ᵐ u ∂uniform3, ∀ wo C, sampleDirection W ⟨u.1, u.2.1, u.2.2⟩ st.sp st.wi st.comp .EL = .ok wo C → ∀ hit, Q.isect st.sp.geom.p wo = some hit → ∀ rp,
      measured i H (hitSplat W c nv st wo (st.thr * C) rp hit) = H rp * (ENNReal.ofReal (chan i (st.thr * C)) * (hitShare N c.mode st.sp st.wi st.comp wo * S.emit hit (-wo))) := by
  filter_upwards [hS.next _ _ hg _ hc, hs.hit] with u hu hh wo C hd hit hq rp
  obtain ⟨hC', hn⟩ := hu.2 wo C hd
  obtain ⟨hl, _⟩ := hn hit hq
  obtain ⟨hun, hp⟩ := hh wo C hd
  obtain ⟨p1, p2, p3⟩ := hs.pdf _ hun
  have hthr' : 0 ≤ chan i (st.thr * C) := by rw [chan_mul]; exact mul_nonneg (chan_nonneg hthr i) (chan_nonneg hC' i)
  rw [hS.emit]
  unfold hitSplat emitted hitShare
  rw [hb]
  simp only [Option.bind_eq_bind, Option.bind_some, and_true]
  by_cases hnee : c.mode = .nee
  · simp [hnee, measured]
  · rw [if_neg hnee, if_neg hnee, hl]
    cases hL : W.lightAt hit.primitive with
    | none => simp [measured]
    | some L =>
      have hp := hp hit hq (by rw [hL]; rfl)
      simp only [Option.isSome_some, Option.bind_some, if_true, evalContrbDirection, asLight, hL, hitWeight, hm, if_false, Bool.not_true, Bool.false_eq_true, p1, Option.bind_eq_bind, Option.pure_def]
      simp only [asLight] at hp
      rw [hp]
      simp only [Option.bind_some, measured, List.map_cons, List.map_nil, List.sum_cons, List.sum_nil, add_zero]
      rw [chan_smul, chan_mul i (st.thr * C), ENNReal.ofReal_mul (balance_nonneg p2 (hC wo)), ENNReal.ofReal_mul hthr']
      ring

/-- A hit at a vertex where lights cannot be sampled is counted in full. -/
theorem hit_full (W : World) (Q : Query) (S : Optics) (i : Fin 3) (good) (hS : Sound W Q S i good) (c : Cfg) (H : ℝ × ℝ → ℝ≥0∞) (nv : ℕ) (st : St) (hg : good st.sp st.wi)
    (hc : st.comp ∈ S.comps st.sp st.wi) (hthr : NonNeg st.thr) (hb : byNee W c nv st = some false) :
    ∀ᵐ u ∂uniform3, ∀ wo C, sampleDirection W ⟨u.1, u.2.1, u.2.2⟩ st.sp st.wi st.comp .EL = .ok wo C → ∀ hit, Q.isect st.sp.geom.p wo = some hit → ∀ rp,
      measured i H (hitSplat W c nv st wo (st.thr * C) rp hit) = H rp * (ENNReal.ofReal (chan i (st.thr * C)) * (1 * S.emit hit (-wo))) := by
  filter_upwards [hS.next _ _ hg _ hc] with u hu wo C hd hit hq rp
  obtain ⟨hC, hn⟩ := hu.2 wo C hd
  obtain ⟨hl, _⟩ := hn hit hq
  have hthr' : 0 ≤ chan i (st.thr * C) := by rw [chan_mul]; exact mul_nonneg (chan_nonneg hthr i) (chan_nonneg hC i)
  have hw : ∀ spL, hitWeight W c false st wo spL = some 1 := fun spL => by unfold hitWeight; split <;> rfl
  rw [hS.emit]
  unfold hitSplat emitted
  rw [hb, hl]
  cases hL : W.lightAt hit.primitive with
  | none => simp [measured]
  | some L =>
    simp [measured, hw, evalContrbDirection, asLight, hL]
    rw [chan_mul i (st.thr * C), ENNReal.ofReal_mul hthr']

/-! ### The walk -/

/-- C82. In every mode, with or without light sampling and multiple importance sampling, averaged over all random numbers, what a walk of k iterations from a vertex adds to the film is its throughput times the
    scattering of what arrives at the vertex. -/
theorem C82_walk (W : World) (Q : Query) (S : Optics) (N : Connection) (i : Fin 3) (good) (hS : Sound W Q S i good) (c : Cfg) (hN : c.mode ≠ .naive → NeeSound W Q S N i good) (H : ℝ × ℝ → ℝ≥0∞) (rs : ℕ → Rnd) (k nv : ℕ)
    (hnv : 1 ≤ nv) (st : St) (hg : good st.sp st.wi) (hc : st.comp ∈ S.comps st.sp st.wi) (hthr : NonNeg st.thr) (hfilm : Measurable (onFilm W H nv st.rp)) (hras : nv = 1 → ∀ d, ∃ o, rasterAt W d = some o)
    (hcam : nv = 1 → ∀ᵐ u ∂uniform3, ∀ wo C, sampleDirection W ⟨u.1, u.2.1, u.2.2⟩ st.sp st.wi st.comp .EL = .ok wo C → ∃ r, rasterAt W wo = some (some r)) :
    average k nv rs (fun rs' => measured i H (walk W (rouletteAt (2 / 10)) (ptBody W Q c) rs' k nv st)) =
      ENNReal.ofReal (chan i st.thr) * ∫⁻ d, onFilm W H nv st.rp d * S.incoming k st.sp d ∂S.scatter st.sp st.wi st.comp := by
  induction k generalizing nv rs st with
  | zero => simp [average, walk, measured, Optics.incoming]
  | succ k ih =>
    have ih' : ∀ rs st, good st.sp st.wi → st.comp ∈ S.comps st.sp st.wi → NonNeg st.thr →
        average k (nv + 1) rs (fun rs' => measured i H (walk W (rouletteAt (2 / 10)) (ptBody W Q c) rs' k (nv + 1) st)) = ENNReal.ofReal (chan i st.thr) * (H st.rp * ∫⁻ d, S.incoming k st.sp d ∂S.scatter st.sp st.wi st.comp) := by
      intro rs st hg hc hthr
      have h2 : ∀ d, onFilm W H (nv + 1) st.rp d = H st.rp := fun d => by rw [onFilm, if_neg (by omega)]
      rw [ih rs (nv + 1) (by omega) st hg hc hthr (by rw [funext h2]; exact measurable_const) (fun h => absurd h (by omega)) (fun h => absurd h (by omega))]
      simp_rw [h2]
      rw [lintegral_const_mul _ (hS.measurable k _ _ hg)]
    have hb : byNee W c nv st = some false ∨ (c.mode ≠ .naive ∧ byNee W c nv st = some true ∧ isSpecularComponent W st.sp st.comp = some false) := by
      by_cases hm : c.mode = .naive
      · left; unfold byNee; rw [if_pos hm]
      · obtain ⟨b, hb, _⟩ := (hN hm).specular _ _ hg _ hc
        unfold byNee
        rw [if_neg hm, hb, Option.map_some]
        cases b
        · cases hp : c.pixel <;> simp [hm]
          by_cases h1 : nv > 1
          · right; exact h1
          · left; omega
        · left; simp
    rcases hb with hb | ⟨hm, hb, hsp⟩
    · refine step_average W Q S i good hS c H rs k nv st hg hc hthr ih' hfilm hcam (fun _ => 0) (fun _ => 1) measurable_const (Filter.Eventually.of_forall fun d => by simp) ?_ (hit_full W Q S i good hS c H nv st hg hc hthr hb)
      have : ∀ l, ptNee W Q c nv st ⟨l, ⟨0, 0, 0⟩, 0, 0⟩ = some [] := fun l => by unfold ptNee; rw [hb]; rfl
      simp_rw [this]
      simp [measured, averageLight_const]
    · obtain ⟨b, hb', hcs⟩ := (hN hm).specular _ _ hg _ hc
      rw [hsp] at hb'
      cases hb'
      obtain ⟨hC, hs⟩ := hcs rfl
      exact step_average W Q S i good hS c H rs k nv st hg hc hthr ih' hfilm hcam (neeShare N c.mode st.sp st.wi st.comp) (hitShare N c.mode st.sp st.wi st.comp)
        (measurable_shares N c.mode st.sp st.wi st.comp hC.measurable_pdf hs.measurable_pdf).2 (shares_ae hC.nonneg_pdf hs c.mode) (nee_average W Q S N i good hS c H nv st hg hC hs hthr hfilm hras hb)
        (hit_value W Q S N i good hS c hm H nv st hg hc hC.nonneg_pdf hs hthr hb)

end LM.Transport
