import Verif.Spec.Fog
import Verif.Props.C82_Nee
/-
  C85: the walk of the volumetric path tracers, without bias.
-/
namespace LM.Transport
open MeasureTheory LM LM.Surface LM.Material LM.Light LM.Path LM.Render LM.Solid LM.Tracking
open scoped ENNReal

variable {Ω : Type} [MeasurableSpace Ω] {μ : Measure Ω} [IsProbabilityMeasure μ]

theorem intP_const (c : ℝ≥0∞) : ∫⁻ _, c ∂μ = c := by rw [lintegral_const, measure_univ, mul_one]

theorem averageVolStep_const (c : ℝ≥0∞) : averageVolStep μ (fun _ _ _ => c) = c := by
  unfold averageVolStep
  simp only [int1_const, intP_const, int3_const, averageLight_const]

theorem averageVolStep_add (c : ℝ≥0∞) (f : Rnd → Ω → Ω → ℝ≥0∞) : averageVolStep μ (fun r t s => c + f r t s) = c + averageVolStep μ f := by
  unfold averageVolStep
  simp only [lintegral_add_left measurable_const, int1_const, intP_const, int3_const]
  rw [add_comm, ← averageLight_add]
  simp_rw [add_comm c]

theorem averageVol_const (k nv : ℕ) (rs : ℕ → Rnd) (ms : ℕ → Ω × Ω) (c : ℝ≥0∞) : averageVol μ k nv rs ms (fun _ _ => c) = c := by
  induction k generalizing nv rs ms with
  | zero => rfl
  | succ k ih => simp only [averageVol, ih, averageVolStep_const]

theorem averageVol_add (k nv : ℕ) (rs : ℕ → Rnd) (ms : ℕ → Ω × Ω) (c : ℝ≥0∞) (f) : averageVol μ k nv rs ms (fun rs' ms' => c + f rs' ms') = c + averageVol μ k nv rs ms f := by
  induction k generalizing nv rs ms with
  | zero => rfl
  | succ k ih => simp only [averageVol, ih, averageVolStep_add]

omit [IsProbabilityMeasure μ] in
theorem averageVol_congr (k nv : ℕ) (rs : ℕ → Rnd) (ms : ℕ → Ω × Ω) (f g) (h : ∀ rs' ms', (∀ j < nv, rs' j = rs j ∧ ms' j = ms j) → f rs' ms' = g rs' ms') : averageVol μ k nv rs ms f = averageVol μ k nv rs ms g := by
  induction k generalizing nv rs ms with
  | zero => exact h rs ms fun _ _ => ⟨rfl, rfl⟩
  | succ k ih =>
    simp only [averageVol]
    congr 1
    funext r t s
    refine ih _ _ _ fun rs' ms' h' => h rs' ms' fun j hj => ?_
    obtain ⟨h1, h2⟩ := h' j (by omega)
    rw [h1, h2, Function.update_of_ne (by omega), Function.update_of_ne (by omega)]
    exact ⟨rfl, rfl⟩

/-- One iteration, given its random numbers for the medium. -/
noncomputable def bodyAt (W : World) (dist : Ω → SI → V3 ℝ → DRes) (tr : Ω → SI → SI → Option (V3 ℝ)) (naive : Bool) (m : Ω × Ω) : ℕ → St → Rnd → Option (List Splat × Option Hop) :=
  volBody W (volQuery dist tr fun _ => m) naive

/-- What the k iterations after the next vertex add. -/
noncomputable def afterVol (μ : Measure Ω) (W : World) (rr : ℕ → V3 ℝ → ℝ → Option (Option (V3 ℝ))) (dist : Ω → SI → V3 ℝ → DRes) (tr : Ω → SI → SI → Option (V3 ℝ)) (naive : Bool) (i : Fin 3) (H : ℝ × ℝ → ℝ≥0∞)
    (rs : ℕ → Rnd) (ms : ℕ → Ω × Ω) (k nv : ℕ) : Option (Option St) → ℝ≥0∞
  | none => ⊤
  | some none => 0
  | some (some st') => averageVol μ k (nv + 1) rs ms fun rs' ms' => measured i H (walk W rr (volBody W (volQuery dist tr ms') naive) rs' k (nv + 1) st')

/-- The average over one iteration and those that follow. -/
theorem averageVol_walk (W : World) (rr) (dist) (tr) (naive : Bool) (i : Fin 3) (H : ℝ × ℝ → ℝ≥0∞) (rs : ℕ → Rnd) (ms : ℕ → Ω × Ω) (k nv : ℕ) (st : St) :
    averageVol μ (k + 1) nv rs ms (fun rs' ms' => measured i H (walk W rr (volBody W (volQuery dist tr ms') naive) rs' (k + 1) nv st)) =
      averageVolStep μ fun r t s => match bodyAt W dist tr naive (t, s) nv st r with
        | none => ⊤
        | some (out, none) => measured i H (some out)
        | some (out, some h) => measured i H (some out) + afterVol μ W rr dist tr naive i H (Function.update rs nv r) (Function.update ms nv (t, s)) k nv (advance W rr nv h r) := by
  rw [averageVol]
  congr 1
  funext r t s
  have hr : ∀ (rs' : ℕ → Rnd) (ms' : ℕ → Ω × Ω), (∀ j < nv + 1, rs' j = Function.update rs nv r j ∧ ms' j = Function.update ms nv (t, s) j) →
      volBody W (volQuery dist tr ms') naive nv st r = bodyAt W dist tr naive (t, s) nv st r ∧ rs' nv = r := fun rs' ms' h => by
    obtain ⟨h1, h2⟩ := h nv (by omega)
    rw [Function.update_self] at h1 h2
    refine ⟨?_, h1⟩
    have : volBody W (volQuery dist tr ms') naive nv st r = bodyAt W dist tr naive (ms' nv) nv st r := rfl
    rw [this, h2]
  rcases hb : bodyAt W dist tr naive (t, s) nv st r with _ | ⟨out, _ | h⟩
  · dsimp only
    rw [averageVol_congr k (nv + 1) _ _ _ (fun _ _ => ⊤), averageVol_const]
    intro rs' ms' h'
    simp only [walk, (hr rs' ms' h').2, (hr rs' ms' h').1, hb, measured]
  · dsimp only
    rw [averageVol_congr k (nv + 1) _ _ _ (fun _ _ => measured i H (some out)), averageVol_const]
    intro rs' ms' h'
    simp only [walk, (hr rs' ms' h').2, (hr rs' ms' h').1, hb]
  · dsimp only
    rcases ha : advance W rr nv h r with _ | _ | st'
    · rw [averageVol_congr k (nv + 1) _ _ _ (fun _ _ => ⊤), averageVol_const]
      · simp [afterVol]
      · intro rs' ms' h'
        simp only [walk, (hr rs' ms' h').2, (hr rs' ms' h').1, hb, ha, measured]
    · rw [averageVol_congr k (nv + 1) _ _ _ (fun _ _ => measured i H (some out)), averageVol_const]
      · simp [afterVol]
      · intro rs' ms' h'
        simp only [walk, (hr rs' ms' h').2, (hr rs' ms' h').1, hb, ha]
    · rw [averageVol_congr k (nv + 1) _ _ _ (fun rs' ms' => measured i H (some out) + measured i H (walk W rr (volBody W (volQuery dist tr ms') naive) rs' k (nv + 1) st')), averageVol_add]
      · rfl
      · intro rs' ms' h'
        simp only [walk, (hr rs' ms' h').2, (hr rs' ms' h').1, hb, ha]
        cases walk W rr (volBody W (volQuery dist tr ms') naive) rs' k (nv + 1) st' with
        | none => simp [measured]
        | some l => rw [Option.map_some, measured_append]

/-! ### Scenes -/

/-- One channel of the estimate made with a sampled distance: the weight times a function of the interaction. -/
noncomputable def distWorth (i : Fin 3) (V : SI → ℝ≥0∞) : DRes → ℝ≥0∞
  | .fail => 0
  | .undef => ⊤
  | .ok hit C => ENNReal.ofReal (chan i C) * V hit

/-- What is scattered towards the viewer at an interaction met in direction d, if T sp wi c is what the component c at sp scatters towards wi. -/
noncomputable def Optics.scatteringOf (S : Optics) (T : SI → V3 ℝ → ℕ → ℝ≥0∞) (d : V3 ℝ) (hit : SI) : ℝ≥0∞ :=
  if hit.geom.infinite then 0 else ∑ c ∈ S.comps hit (-d), T hit (-d) c

/-- What is scattered towards the viewer at an interaction met in direction d. -/
noncomputable def Fog.scattering (F : Fog) (S : Optics) (k : ℕ) (d : V3 ℝ) (hit : SI) : ℝ≥0∞ :=
  if hit.geom.infinite then 0 else ∑ c ∈ S.comps hit (-d), ∫⁻ d', F.incoming S k hit d' ∂S.scatter hit (-d) c

/-- What is emitted towards the viewer: only by surfaces. -/
noncomputable def shining (S : Optics) (d : V3 ℝ) (hit : SI) : ℝ≥0∞ := if hit.kind = .medium then 0 else S.emit hit (-d)

/-- What is required of a scene with a medium, for one colour channel. `good sp wi`: sp can be a vertex of a path, seen from direction wi. -/
structure VolSound (μ : Measure Ω) (W : World) (S : Optics) (F : Fog) (dist : Ω → SI → V3 ℝ → DRes) (i : Fin 3) (good : SI → V3 ℝ → Prop) : Prop where
  emit : S.emit = emitted W i
  /-- the points of the medium are vertices of that kind -/
  medium : ∀ p, (F.vertex p).kind = .medium ∧ (F.vertex p).geom.infinite = false
  /-- surfaces and the environment are not -/
  surface : ∀ o d hit, S.isect o d = some hit → hit.kind ≠ .medium
  /-- scattering is estimated without bias -/
  unbiased : ∀ sp wi, good sp wi → ∀ c ∈ S.comps sp wi, ∀ L, Measurable L → ∫⁻ u, worth i L (sampleDirection W ⟨u.1, u.2.1, u.2.2⟩ sp wi c .EL) ∂uniform3 = ∫⁻ d, L d ∂S.scatter sp wi c
  /-- almost surely, sampling a direction is defined, with a nonnegative weight; distances sampled in this direction estimate the volume rendering equation without bias, and almost surely
      the interaction is a good vertex or at infinity -/
  next : ∀ sp wi, good sp wi → ∀ c ∈ S.comps sp wi, ∀ᵐ u ∂uniform3, sampleDirection W ⟨u.1, u.2.1, u.2.2⟩ sp wi c .EL ≠ .undef ∧
    ∀ wo C, sampleDirection W ⟨u.1, u.2.1, u.2.2⟩ sp wi c .EL = .ok wo C → NonNeg C ∧
      (∀ V : SI → ℝ≥0∞, Measurable (fun p => V (F.vertex p)) →
        ∫⁻ s, distWorth i V (dist s sp wo) ∂μ = F.through S sp.geom.p wo (fun p => V (F.vertex p)) (match S.isect sp.geom.p wo with | none => 0 | some hit => V hit)) ∧
      (∀ k, Measurable fun p => F.scattering S k wo (F.vertex p)) ∧
      ∀ᵐ s ∂μ, dist s sp wo ≠ .undef ∧ ∀ hit wd, dist s sp wo = .ok hit wd → NonNeg wd ∧ isLight W hit = some (decide (hit.kind ≠ .medium) && (W.lightAt hit.primitive).isSome) ∧ (hit.geom.infinite = false → good hit (-wo))
  /-- components are selected without bias -/
  select : ∀ sp wi, good sp wi → (∀ u, 0 ≤ u → u < 1 → ∃ c w, sampleComponent W u sp wi = some (c, w) ∧ c ∈ S.comps sp wi ∧ 0 ≤ w) ∧
    ∀ F : ℕ → ℝ≥0∞, ∫⁻ u, compWorth F (sampleComponent W u sp wi) ∂uniform1 = ∑ c ∈ S.comps sp wi, F c
  /-- what arrives is a measurable function of the direction -/
  measurable : ∀ k sp wi, good sp wi → Measurable (F.incoming S k sp)

/-- The end of an iteration: averaged over roulette and component selection, what the k following iterations add is proportional to the throughput. -/
theorem advanceVol_average_of (W : World) (S : Optics) (F : Fog) (dist) (tr) (i : Fin 3) (good) (hS : VolSound μ W S F dist i good) (H : ℝ × ℝ → ℝ≥0∞) (q0 : ℝ) (hq0 : 0 ≤ q0) (hq1 : q0 < 1) (naive : Bool) (rs : Rnd → ℕ → Rnd) (ms : ℕ → Ω × Ω) (k nv : ℕ) (T : SI → V3 ℝ → ℕ → ℝ≥0∞)
    (ih : ∀ rs ms st, good st.sp st.wi → st.comp ∈ S.comps st.sp st.wi → NonNeg st.thr →
      averageVol μ k (nv + 1) rs ms (fun rs' ms' => measured i H (walk W (rouletteAt q0) (volBody W (volQuery dist tr ms') naive) rs' k (nv + 1) st)) =
        ENNReal.ofReal (chan i st.thr) * (H st.rp * T st.sp st.wi st.comp))
    (h : Hop) (hthr : NonNeg h.thr) (hg : h.hit.geom.infinite = false → good h.hit (-h.wo)) (l : RaySampleU) (u : DirU) :
    ∫⁻ a, ∫⁻ b, afterVol μ W (rouletteAt q0) dist tr naive i H (rs ⟨l, u, a, b⟩) ms k nv (advance W (rouletteAt q0) nv h ⟨l, u, a, b⟩) ∂uniform1 ∂uniform1 =
      ENNReal.ofReal (chan i h.thr) * (H h.rp * S.scatteringOf T h.wo h.hit) := by
  unfold Optics.scatteringOf
  cases hi : h.hit.geom.infinite
  · have hg := hg hi
    simp only [Bool.false_eq_true, if_false]
    obtain ⟨hsel, hsum⟩ := hS.select _ _ hg
    let X : Option (Option (V3 ℝ)) → ℝ≥0∞ := fun o => match o with
      | none => ⊤
      | some none => 0
      | some (some t) => ENNReal.ofReal (chan i t) * (H h.rp * ∑ c ∈ S.comps h.hit (-h.wo), T h.hit (-h.wo) c)
    have e : ∀ a, 0 ≤ a → a < 1 → ∫⁻ b, afterVol μ W (rouletteAt q0) dist tr naive i H (rs ⟨l, u, a, b⟩) ms k nv (advance W (rouletteAt q0) nv h ⟨l, u, a, b⟩) ∂uniform1 = X (rouletteAt q0 nv h.thr a) := by
      intro a ha0 ha1
      unfold advance
      simp only [hi, Bool.false_eq_true, if_false]
      rcases hr : rouletteAt q0 nv h.thr a with _ | _ | t
      · exact int1_const _
      · exact int1_const _
      · have ht : NonNeg t := roulette_nonneg q0 hq1 nv h.thr hthr a ha1 t hr
        have : ∀ᵐ b ∂uniform1, afterVol μ W (rouletteAt q0) dist tr naive i H (rs ⟨l, u, a, b⟩) ms k nv ((sampleComponent W b h.hit (-h.wo)).map fun s => some ⟨h.hit, s.1, -h.wo, s.2 • t, h.rp⟩) =
            ENNReal.ofReal (chan i t) * compWorth (fun c => H h.rp * T h.hit (-h.wo) c) (sampleComponent W b h.hit (-h.wo)) := by
          filter_upwards [uniform1_ae] with b hb
          obtain ⟨c, w, hc, hm, hw⟩ := hsel b hb.1 hb.2
          rw [hc, Option.map_some]
          simp only [afterVol, compWorth]
          rw [ih _ _ _ hg hm (nonneg_smul hw ht), chan_smul, ENNReal.ofReal_mul hw]
          ring
        dsimp only
        rw [lintegral_congr_ae this, lintegral_const_mul' _ _ ENNReal.ofReal_ne_top, hsum]
        simp only [X, Finset.mul_sum]
    rw [lintegral_congr_ae (uniform1_ae.mono fun a ha => e a ha.1 ha.2)]
    exact roulette_average_of q0 hq0 hq1 nv h.thr hthr i X _ rfl fun t' _ => rfl
  · unfold advance
    simp [hi, afterVol]

/-! ### One iteration -/

/-- The volume rendering equation is affine in what comes from behind. -/
theorem through_add (F : Fog) (S : Optics) (o d : V3 ℝ) (L : V3 ℝ → ℝ≥0∞) (w w' : ℝ≥0∞) : F.through S o d L (w + w') = F.through S o d (fun _ => 0) w + F.through S o d L w' := by
  unfold Fog.through radiance
  simp only [mul_zero, lintegral_zero, zero_add, mul_add]
  ring

/-- The emission seen from sp in direction d, through the medium. -/
noncomputable def Fog.seen (F : Fog) (S : Optics) (sp : SI) (d : V3 ℝ) : ℝ≥0∞ := F.through S sp.geom.p d (fun _ => 0) (S.seen sp d)

/-- What is scattered towards sp from direction d, by the medium or by the surface behind it. -/
noncomputable def Fog.behind (F : Fog) (S : Optics) (k : ℕ) (sp : SI) (d : V3 ℝ) : ℝ≥0∞ :=
  F.through S sp.geom.p d (fun p => F.scattering S k d (F.vertex p)) (match S.isect sp.geom.p d with | none => 0 | some hit => F.scattering S k d hit)

/-- The same, for what is scattered in any way. -/
noncomputable def Fog.behindOf (F : Fog) (S : Optics) (T : SI → V3 ℝ → ℕ → ℝ≥0∞) (sp : SI) (d : V3 ℝ) : ℝ≥0∞ :=
  F.through S sp.geom.p d (fun p => S.scatteringOf T d (F.vertex p)) (match S.isect sp.geom.p d with | none => 0 | some hit => S.scatteringOf T d hit)

theorem VolSound.incoming_succ {W S F dist i good} (hS : VolSound μ W S F dist i good) (k : ℕ) (sp : SI) (d : V3 ℝ) : F.incoming S (k + 1) sp d = F.seen S sp d + F.behind S k sp d := by
  unfold Fog.seen Fog.behind
  rw [← through_add, Fog.incoming]
  have e : (fun p => F.scattering S k d (F.vertex p)) = fun p => ∑ c ∈ S.comps (F.vertex p) (-d), ∫⁻ d', F.incoming S k (F.vertex p) d' ∂S.scatter (F.vertex p) (-d) c := by
    funext p
    unfold Fog.scattering
    rw [(hS.medium p).2]; rfl
  rw [e]
  congr 1
  unfold Optics.seen Fog.scattering
  cases S.isect sp.geom.p d <;> simp

theorem scattering_zero (F : Fog) (S : Optics) (d : V3 ℝ) (hit : SI) : F.scattering S 0 d hit = 0 := by simp [Fog.scattering, Fog.incoming]

theorem behind_zero (F : Fog) (S : Optics) (sp : SI) (d : V3 ℝ) : F.behind S 0 sp d = 0 := by
  unfold Fog.behind Fog.through radiance
  simp only [scattering_zero, mul_zero, lintegral_zero, zero_add]
  cases S.isect sp.geom.p d <;> simp

theorem VolSound.seen_eq {W S F dist i good} (hS : VolSound μ W S F dist i good) (sp : SI) (d : V3 ℝ) : F.seen S sp d = F.incoming S 1 sp d := by
  rw [hS.incoming_succ, behind_zero, add_zero]

theorem VolSound.seen_ne_top {W S F dist i good} (hS : VolSound μ W S F dist i good) (sp : SI) (d : V3 ℝ) : F.seen S sp d ≠ ⊤ := by
  unfold Fog.seen Fog.through radiance
  simp only [mul_zero, lintegral_zero, zero_add]
  refine ENNReal.mul_ne_top ENNReal.ofReal_ne_top ?_
  unfold Optics.seen
  cases S.isect sp.geom.p d with
  | none => simp
  | some hit => dsimp only; rw [hS.emit]; exact emitted_ne_top W i hit _

theorem VolSound.measurable_seen {W S F dist i good} (hS : VolSound μ W S F dist i good) (sp : SI) (wi : V3 ℝ) (h : good sp wi) : Measurable (F.seen S sp) := by
  have : F.seen S sp = F.incoming S 1 sp := funext (hS.seen_eq sp)
  rw [this]
  exact hS.measurable 1 sp wi h

theorem VolSound.measurable_behind {W S F dist i good} (hS : VolSound μ W S F dist i good) (k : ℕ) (sp : SI) (wi : V3 ℝ) (h : good sp wi) : Measurable (F.behind S k sp) := by
  have : F.behind S k sp = fun d => F.incoming S (k + 1) sp d - F.seen S sp d := funext fun d => by
    rw [hS.incoming_succ, ENNReal.add_sub_cancel_left (hS.seen_ne_top sp d)]
  rw [this]
  exact (hS.measurable (k + 1) sp wi h).sub (hS.measurable_seen sp wi h)

/-- What an iteration adds after light sampling, with what follows. -/
noncomputable def restVol (μ : Measure Ω) (W : World) (q0 : ℝ) (dist : Ω → SI → V3 ℝ → DRes) (tr : Ω → SI → SI → Option (V3 ℝ)) (naive : Bool) (i : Fin 3) (H : ℝ × ℝ → ℝ≥0∞) (rs : ℕ → Rnd) (ms : ℕ → Ω × Ω) (k nv : ℕ) (st : St) (r : Rnd) (s : Ω) : ℝ≥0∞ :=
  match sampleDirection W r.dir st.sp st.wi st.comp .EL with
  | .undef => ⊤
  | .fail => 0
  | .ok wo w => match newRaster W nv st wo with
    | none => ⊤
    | some rp => match dist s st.sp wo with
      | .undef => ⊤
      | .fail => 0
      | .ok hit wd => measured i H (volHit W naive nv st wo (st.thr * (w * wd)) rp hit) +
          afterVol μ W (rouletteAt q0) dist tr naive i H rs ms k nv (advance W (rouletteAt q0) nv ⟨hit, wo, st.thr * (w * wd), rp⟩ r)

/-- Light sampling, given the random numbers for the transmittance. -/
noncomputable def neeAt (W : World) (tr : Ω → SI → SI → Option (V3 ℝ)) (naive : Bool) (t : Ω) (nv : ℕ) (st : St) (l : RaySampleU) : Option (List Splat) :=
  volNee W ⟨fun _ _ _ => .fail, fun _ => tr t⟩ naive nv st ⟨l, ⟨0, 0, 0⟩, 0, 0⟩

theorem bodyVol_value (W : World) (q0 : ℝ) (dist : Ω → SI → V3 ℝ → DRes) (tr) (naive : Bool) (i : Fin 3) (H : ℝ × ℝ → ℝ≥0∞) (rs : ℕ → Rnd) (ms : ℕ → Ω × Ω) (k nv : ℕ) (st : St) (r : Rnd) (t s : Ω) :
    (match bodyAt W dist tr naive (t, s) nv st r with
        | none => ⊤
        | some (out, none) => measured i H (some out)
        | some (out, some h) => measured i H (some out) + afterVol μ W (rouletteAt q0) dist tr naive i H rs ms k nv (advance W (rouletteAt q0) nv h r)) =
      measured i H (neeAt W tr naive t nv st r.light) + restVol μ W q0 dist tr naive i H rs ms k nv st r s := by
  unfold restVol
  have hN : volNee W (volQuery dist tr fun _ => (t, s)) naive nv st r = neeAt W tr naive t nv st r.light := rfl
  have hD : ∀ wo, (volQuery dist tr fun _ => (t, s)).dist nv st.sp wo = dist s st.sp wo := fun _ => rfl
  unfold bodyAt
  cases hn : neeAt W tr naive t nv st r.light with
  | none => simp [volBody, hN, hn, measured]
  | some a =>
    cases hd : sampleDirection W r.dir st.sp st.wi st.comp .EL with
    | undef => simp [volBody, hN, hn, hd]
    | fail => simp [volBody, hN, hn, hd]
    | ok wo w =>
      cases hr : newRaster W nv st wo with
      | none => simp [volBody, hN, hn, hd, hr]
      | some rp =>
        cases hq : dist s st.sp wo with
        | undef => simp [volBody, hN, hn, hd, hr, hD, hq]
        | fail => simp [volBody, hN, hn, hd, hr, hD, hq]
        | ok hit wd =>
          cases hh : volHit W naive nv st wo (st.thr * (w * wd)) rp hit with
          | none => simp [volBody, hN, hn, hd, hr, hD, hq, hh, measured]
          | some b =>
            simp only [volBody, hN, hn, hd, hr, hD, hq, hh, Option.bind_eq_bind, Option.bind_some, Option.pure_def]
            rw [measured_append, add_assoc]

theorem nonneg_mul3 {a b : V3 ℝ} (ha : NonNeg a) (hb : NonNeg b) : NonNeg (a * b) := ⟨mul_nonneg ha.1 hb.1, mul_nonneg ha.2.1 hb.2.1, mul_nonneg ha.2.2 hb.2.2⟩

/-- What the emission at the next interaction adds. -/
theorem volHit_value (W : World) (S : Optics) (i : Fin 3) (he : S.emit = emitted W i) (H : ℝ × ℝ → ℝ≥0∞) (naive : Bool) (nv : ℕ) (st : St) (wo thr : V3 ℝ) (hthr : NonNeg thr) (rp : ℝ × ℝ) (hit : SI) (b : Bool) (hb : volByNee W naive nv st = some b)
    (hl : isLight W hit = some (decide (hit.kind ≠ .medium) && (W.lightAt hit.primitive).isSome)) :
    measured i H (volHit W naive nv st wo thr rp hit) = H rp * (ENNReal.ofReal (chan i thr) * ((if b then 0 else 1) * shining S wo hit)) := by
  unfold volHit shining
  rw [hb, hl, he]
  cases b
  · by_cases hk : hit.kind = .medium
    · simp [hk, measured]
    · cases hL : W.lightAt hit.primitive with
      | none => simp [hk, hL, measured, emitted]
      | some L =>
        simp [hk, hL, measured, emitted, evalContrbDirection, asLight]
        rw [chan_mul, ENNReal.ofReal_mul (chan_nonneg hthr i)]
  · simp [measured]

/-- One iteration: if the light samples add the emission seen from the vertex through the medium (and X, from lights without extent), or hits do, then all in all the iteration and the k following ones add the
    throughput times the scattering of what arrives. -/
theorem stepVol_average_of (W : World) (S : Optics) (F : Fog) (dist) (tr) (i : Fin 3) (good) (hS : VolSound μ W S F dist i good) (q0 : ℝ) (hq0 : 0 ≤ q0) (hq1 : q0 < 1) (naive : Bool) (H : ℝ × ℝ → ℝ≥0∞) (rs : ℕ → Rnd) (ms : ℕ → Ω × Ω) (k nv : ℕ) (T : SI → V3 ℝ → ℕ → ℝ≥0∞) (X : ℝ≥0∞) (st : St)
    (hg : good st.sp st.wi) (hc : st.comp ∈ S.comps st.sp st.wi) (hthr : NonNeg st.thr)
    (ih : ∀ rs ms st, good st.sp st.wi → st.comp ∈ S.comps st.sp st.wi → NonNeg st.thr →
      averageVol μ k (nv + 1) rs ms (fun rs' ms' => measured i H (walk W (rouletteAt q0) (volBody W (volQuery dist tr ms') naive) rs' k (nv + 1) st)) =
        ENNReal.ofReal (chan i st.thr) * (H st.rp * T st.sp st.wi st.comp))
    (hT : ∀ᵐ u ∂uniform3, ∀ wo C, sampleDirection W ⟨u.1, u.2.1, u.2.2⟩ st.sp st.wi st.comp .EL = .ok wo C → Measurable fun p => S.scatteringOf T wo (F.vertex p)) (hTm : Measurable (F.behindOf S T st.sp))
    (hfilm : Measurable (onFilm W H nv st.rp)) (hH : ∀ q, H q ≠ ⊤)
    (hcam : nv = 1 → ∀ᵐ u ∂uniform3, ∀ wo C, sampleDirection W ⟨u.1, u.2.1, u.2.2⟩ st.sp st.wi st.comp .EL = .ok wo C → ∃ r, rasterAt W wo = some (some r))
    (b : Bool) (hb : volByNee W naive nv st = some b)
    (hnee : averageLight (fun l => ∫⁻ t, measured i H (neeAt W tr naive t nv st l) ∂μ) =
      ENNReal.ofReal (chan i st.thr) * (∫⁻ d, onFilm W H nv st.rp d * ((if b then 1 else 0) * F.seen S st.sp d) ∂S.scatter st.sp st.wi st.comp + X)) :
    averageVol μ (k + 1) nv rs ms (fun rs' ms' => measured i H (walk W (rouletteAt q0) (volBody W (volQuery dist tr ms') naive) rs' (k + 1) nv st)) =
      ENNReal.ofReal (chan i st.thr) * (∫⁻ d, onFilm W H nv st.rp d * (F.seen S st.sp d + F.behindOf S T st.sp d) ∂S.scatter st.sp st.wi st.comp + X) := by
  rw [averageVol_walk]
  simp_rw [bodyVol_value]
  set wh : ℝ≥0∞ := if b then 0 else 1 with hwh
  have hLm : Measurable fun d => onFilm W H nv st.rp d * (wh * F.seen S st.sp d + F.behindOf S T st.sp d) := hfilm.mul (((hS.measurable_seen _ _ hg).const_mul _).add hTm)
  -- the part after light sampling
  have hrest : ∀ l t, ∫⁻ u, ∫⁻ s, ∫⁻ a, ∫⁻ b, restVol μ W q0 dist tr naive i H (Function.update rs nv ⟨l, ⟨u.1, u.2.1, u.2.2⟩, a, b⟩) (Function.update ms nv (t, s)) k nv st ⟨l, ⟨u.1, u.2.1, u.2.2⟩, a, b⟩ s ∂uniform1 ∂uniform1 ∂μ ∂uniform3 =
      ENNReal.ofReal (chan i st.thr) * ∫⁻ d, onFilm W H nv st.rp d * (wh * F.seen S st.sp d + F.behindOf S T st.sp d) ∂S.scatter st.sp st.wi st.comp := by
    intro l t
    have hcam' : ∀ᵐ u ∂uniform3, ∀ wo C, sampleDirection W ⟨u.1, u.2.1, u.2.2⟩ st.sp st.wi st.comp .EL = .ok wo C → ∃ r, newRaster W nv st wo = some r ∧ H r = onFilm W H nv st.rp wo := by
      by_cases h1 : nv = 1
      · filter_upwards [hcam h1] with u hu wo C ho
        obtain ⟨r, hr⟩ := hu wo C ho
        exact ⟨r, by simp [newRaster, h1, hr], by simp [onFilm, h1, hr]⟩
      · exact Filter.Eventually.of_forall fun u wo C _ => ⟨st.rp, by simp [newRaster, h1], by simp [onFilm, h1]⟩
    have key : ∀ᵐ u ∂uniform3, ∫⁻ s, ∫⁻ a, ∫⁻ b, restVol μ W q0 dist tr naive i H (Function.update rs nv ⟨l, ⟨u.1, u.2.1, u.2.2⟩, a, b⟩) (Function.update ms nv (t, s)) k nv st ⟨l, ⟨u.1, u.2.1, u.2.2⟩, a, b⟩ s ∂uniform1 ∂uniform1 ∂μ =
        ENNReal.ofReal (chan i st.thr) * worth i (fun d => onFilm W H nv st.rp d * (wh * F.seen S st.sp d + F.behindOf S T st.sp d)) (sampleDirection W ⟨u.1, u.2.1, u.2.2⟩ st.sp st.wi st.comp .EL) := by
      filter_upwards [hS.next _ _ hg _ hc, hcam', hT] with u hu hr hT
      obtain ⟨hdef, hu⟩ := hu
      unfold restVol
      dsimp only
      cases hd : sampleDirection W ⟨u.1, u.2.1, u.2.2⟩ st.sp st.wi st.comp .EL with
      | undef => exact absurd hd hdef
      | fail => simp [worth]
      | ok wo C =>
        obtain ⟨hC, hvre, _, hdist⟩ := hu wo C hd
        have hVm := hT wo C hd
        obtain ⟨r, hr1, hr2⟩ := hr wo C hd
        dsimp only
        rw [hr1]
        dsimp only
        unfold worth
        dsimp only
        -- the value of an interaction
        let V : SI → ℝ≥0∞ := fun hit => wh * shining S wo hit + S.scatteringOf T wo hit
        have hVv : ∀ p, V (F.vertex p) = S.scatteringOf T wo (F.vertex p) := fun p => by simp [V, shining, (hS.medium p).1]
        have hV : Measurable fun p => V (F.vertex p) := by rw [funext hVv]; exact hVm
        have hval : F.through S st.sp.geom.p wo (fun p => V (F.vertex p)) (match S.isect st.sp.geom.p wo with | none => 0 | some hit => V hit) = wh * F.seen S st.sp wo + F.behindOf S T st.sp wo := by
          have e1 : wh * F.seen S st.sp wo = F.through S st.sp.geom.p wo (fun _ => 0) (wh * S.seen st.sp wo) := by
            unfold Fog.seen Fog.through radiance
            simp only [mul_zero, lintegral_zero, zero_add]
            ring
          rw [e1, Fog.behindOf, ← through_add, funext hVv]
          congr 1
          unfold Optics.seen
          cases hi : S.isect st.sp.geom.p wo with
          | none => simp
          | some hit => simp [V, shining, hS.surface _ _ _ hi]
        have hfin : ENNReal.ofReal (chan i st.thr) * (ENNReal.ofReal (chan i C) * H r) ≠ ⊤ := ENNReal.mul_ne_top ENNReal.ofReal_ne_top (ENNReal.mul_ne_top ENNReal.ofReal_ne_top (hH r))
        rw [← hval, ← hvre V hV, ← hr2, ← mul_assoc, ← mul_assoc, mul_assoc (ENNReal.ofReal _), ← lintegral_const_mul' _ _ hfin]
        refine lintegral_congr_ae (hdist.mono fun s hs => ?_)
        obtain ⟨hs1, hs2⟩ := hs
        beta_reduce
        cases hds : dist s st.sp wo with
        | undef => exact absurd hds hs1
        | fail => simp [distWorth]
        | ok hit wd =>
          obtain ⟨hwd, hl, hgood⟩ := hs2 hit wd hds
          dsimp only [distWorth]
          have hthr' : NonNeg (st.thr * (C * wd)) := nonneg_mul3 hthr (nonneg_mul3 hC hwd)
          simp_rw [lintegral_add_left measurable_const, int1_const]
          rw [advanceVol_average_of W S F dist tr i good hS H q0 hq0 hq1 naive (fun r => Function.update rs nv r) (Function.update ms nv (t, s)) k nv T ih ⟨hit, wo, st.thr * (C * wd), r⟩ hthr' hgood l,
            volHit_value W S i hS.emit H naive nv st wo _ hthr' r hit b hb hl, chan_mul, chan_mul, ENNReal.ofReal_mul (chan_nonneg hthr i), ENNReal.ofReal_mul (chan_nonneg hC i)]
          simp only [V, hwh]
          ring
    rw [lintegral_congr_ae key, lintegral_const_mul' _ _ ENNReal.ofReal_ne_top, hS.unbiased _ _ hg _ hc _ hLm]
  unfold averageVolStep
  simp only [lintegral_add_left measurable_const, int1_const, intP_const, int3_const, hrest]
  simp_rw [lintegral_add_right _ measurable_const, intP_const]
  rw [averageLight_add, hnee, ← mul_add, add_right_comm, ← lintegral_add_right _ hLm]
  congr 2
  refine lintegral_congr fun d => ?_
  rw [← mul_add, ← add_assoc, ← add_mul]
  cases b <;> simp [hwh]

/-- One iteration: if the light samples add the emission seen from the vertex through the medium, or hits do, then all in all the iteration and the k following ones add the throughput times the scattering of
    what arrives. -/
theorem stepVol_average (W : World) (S : Optics) (F : Fog) (dist) (tr) (i : Fin 3) (good) (hS : VolSound μ W S F dist i good) (q0 : ℝ) (hq0 : 0 ≤ q0) (hq1 : q0 < 1) (naive : Bool) (H : ℝ × ℝ → ℝ≥0∞) (rs : ℕ → Rnd) (ms : ℕ → Ω × Ω) (k nv : ℕ) (st : St)
    (hg : good st.sp st.wi) (hc : st.comp ∈ S.comps st.sp st.wi) (hthr : NonNeg st.thr)
    (ih : ∀ rs ms st, good st.sp st.wi → st.comp ∈ S.comps st.sp st.wi → NonNeg st.thr →
      averageVol μ k (nv + 1) rs ms (fun rs' ms' => measured i H (walk W (rouletteAt q0) (volBody W (volQuery dist tr ms') naive) rs' k (nv + 1) st)) =
        ENNReal.ofReal (chan i st.thr) * (H st.rp * ∫⁻ d, F.incoming S k st.sp d ∂S.scatter st.sp st.wi st.comp))
    (hfilm : Measurable (onFilm W H nv st.rp)) (hH : ∀ q, H q ≠ ⊤)
    (hcam : nv = 1 → ∀ᵐ u ∂uniform3, ∀ wo C, sampleDirection W ⟨u.1, u.2.1, u.2.2⟩ st.sp st.wi st.comp .EL = .ok wo C → ∃ r, rasterAt W wo = some (some r))
    (b : Bool) (hb : volByNee W naive nv st = some b)
    (hnee : averageLight (fun l => ∫⁻ t, measured i H (neeAt W tr naive t nv st l) ∂μ) =
      ENNReal.ofReal (chan i st.thr) * ∫⁻ d, onFilm W H nv st.rp d * ((if b then 1 else 0) * F.seen S st.sp d) ∂S.scatter st.sp st.wi st.comp) :
    averageVol μ (k + 1) nv rs ms (fun rs' ms' => measured i H (walk W (rouletteAt q0) (volBody W (volQuery dist tr ms') naive) rs' (k + 1) nv st)) =
      ENNReal.ofReal (chan i st.thr) * ∫⁻ d, onFilm W H nv st.rp d * F.incoming S (k + 1) st.sp d ∂S.scatter st.sp st.wi st.comp := by
  simp_rw [hS.incoming_succ]
  have h := stepVol_average_of W S F dist tr i good hS q0 hq0 hq1 naive H rs ms k nv (fun sp wi c => ∫⁻ d, F.incoming S k sp d ∂S.scatter sp wi c) 0 st hg hc hthr ih
    ((hS.next _ _ hg _ hc).mono fun u hu wo C e => (hu.2 wo C e).2.2.1 k) (hS.measurable_behind k _ _ hg) hfilm hH hcam b hb (by rw [add_zero]; exact hnee)
  rw [add_zero] at h
  exact h

end LM.Transport
