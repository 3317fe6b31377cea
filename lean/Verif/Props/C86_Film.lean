import Verif.Props.C86_Trace
/-
  C86: what the camera records, as light leaving the surfaces.
-/
namespace LM.Transport
open MeasureTheory LM LM.Surface LM.Material LM.Light LM.MathF LM.Path LM.Render LM.Solid Set
open scoped ENNReal

variable {W : World} {Q : Query} {n : Int} {cam : Camera} {Fs : List (Int × Tri)} {vertex : Int → V3 ℝ → SI} {m : Int → Mat} {C : Int → Finset ℕ} {f : Int → ℕ → V3 ℝ → V3 ℝ → V3 ℝ → V3 ℝ}

theorem primary_unit {cam : Camera} {a b : ℝ} {d : V3 ℝ} (hp : cam.Proper) (h : primaryRay cam a b = some d) : V3.dot d d = 1 := by
  obtain ⟨e, he, h1⟩ := C47_primary cam hp a b
  rw [h] at he; cases he
  exact h1.1

/-- An integral over the film is one over the directions from the camera. -/
theorem Matte.film (h : Matte W Q n cam Fs vertex m C f) {P : V3 ℝ → ℝ} (hPm : Measurable P) (hP : ∀ d, camEval cam d = some (V3.all (P d))) {dir : ℝ × ℝ → V3 ℝ} (hdir : ∀ q, primaryRay cam q.1 q.2 = some (dir q))
    {H : ℝ × ℝ → ℝ≥0∞} (hH : Measurable H) {G : V3 ℝ → ℝ≥0∞} (hG : Measurable G) : ∫⁻ q, H q * G (dir q) ∂uniform2 = ∫⁻ d, onFilm W H 1 (0, 0) d * ENNReal.ofReal (P d) * G d ∂solidAngle := by
  have hfilm := measurable_onCamera W n cam h.camera h.cameraAt H hH (0, 0)
  have hL : Measurable fun d => onFilm W H 1 (0, 0) d * G d := hfilm.mul hG
  have h1 := C81_camera cam W.junk h.proper 0 0 0 0 _ hL
  have hone : chan 0 (V3.all (1 : ℝ)) = 1 := rfl
  have e3 : ∀ q : ℝ × ℝ, worthRay 0 (fun _ d => onFilm W H 1 (0, 0) d * G d) (camSampleRay cam W.junk ⟨0, 0, 0, q.1, q.2⟩) = onFilm W H 1 (0, 0) (dir q) * G (dir q) := fun q => by
    simp only [camSampleRay, hdir q, worthRay, hone, ENNReal.ofReal_one, one_mul]
  simp_rw [e3] at h1
  have hon : ∀ q : ℝ × ℝ, (0 ≤ q.1 ∧ q.1 < 1) ∧ (0 ≤ q.2 ∧ q.2 < 1) → onFilm W H 1 (0, 0) (dir q) = H q := fun q hq => by
    have := C47_round_trip cam h.proper q.1 q.2 ⟨hq.1.1, hq.1.2.le⟩ ⟨hq.2.1, hq.2.2.le⟩
    rw [hdir q, Option.bind_some] at this
    simp only [onFilm, rasterAt, h.camera, Option.bind_some, h.cameraAt, Option.map_some, this, if_true]
  rw [lintegral_congr_ae (int2_ae.mono fun q hq => (by beta_reduce; rw [hon q hq] : onFilm W H 1 (0, 0) (dir q) * G (dir q) = H q * G (dir q)))] at h1
  rw [h1]
  refine lintegral_congr fun d => ?_
  rw [hP d]
  show ENNReal.ofReal (chan 0 (V3.all (P d))) * _ = _
  rw [chan_all]
  ring

theorem _root_.LM.Adjoint.Meas.at {X D : Type} [MeasurableSpace X] [MeasurableSpace D] {F : X → D → ℝ≥0∞} (hF : Adjoint.Meas F) {w : X → D} (hw : Measurable w) : Measurable fun x => F x (w x) := hF.comp (measurable_id'.prodMk hw)

theorem _root_.LM.Adjoint.from_at {X D : Type} [MeasurableSpace X] [MeasurableSpace D] {B : X → D → D → ℝ≥0∞} (hB : Measurable fun q : X × D × D => B q.1 q.2.1 q.2.2) (x : X) (w : D) : Measurable fun d => B x w d :=
  hB.comp (measurable_prodMk_left.comp measurable_prodMk_left)

theorem _root_.LM.Adjoint.Meas.from {X D : Type} [MeasurableSpace X] [MeasurableSpace D] {F : X → D → ℝ≥0∞} (hF : Adjoint.Meas F) (x : X) : Measurable fun d => F x d := hF.comp measurable_prodMk_left

theorem Matte.measurable_importance' (h : Matte W Q n cam Fs vertex m C f) {H : ℝ × ℝ → ℝ≥0∞} (hH : Measurable H) {P : V3 ℝ → ℝ} (hP : Measurable P) : Measurable (importance W Q cam H P) :=
  Adjoint.Meas.at (F := fun x (_ : V3 ℝ) => importance W Q cam H P x) (h.measurable_importance hH hP) (w := fun _ => 0) measurable_const

/-- What the camera records of light that leaves the surfaces. -/
theorem Matte.onto_film (h : Matte W Q n cam Fs vertex m C f) {P : V3 ℝ → ℝ} (hPm : Measurable P) (hP0 : ∀ d, 0 ≤ P d) {H : ℝ × ℝ → ℝ≥0∞} (hH : Measurable H) {F : Spot → V3 ℝ → ℝ≥0∞} (hF : Adjoint.Meas F) (j₀ : Int) :
    ∫⁻ d, onFilm W H 1 (0, 0) d * ENNReal.ofReal (P d) * Adjoint.back (fun x d => hitOf Q x.2 d) F (j₀, cam.position) d ∂solidAngle =
      ∫⁻ x, importance W Q cam H P x * (slant vertex x (-dirOf (x.2 - cam.position)) * F x (-dirOf (x.2 - cam.position))) ∂surf Fs := by
  classical
  have hfilm := measurable_onCamera W n cam h.camera h.cameraAt H hH (0, 0)
  have hc : Measurable fun d => onFilm W H 1 (0, 0) d * ENNReal.ofReal (P d) := hfilm.mul hPm.ennreal_ofReal
  have hFj : ∀ j, Measurable fun q : V3 ℝ × V3 ℝ => onFilm W H 1 (0, 0) q.2 * ENNReal.ofReal (P q.2) * F (j, q.1) (-q.2) := fun j =>
    (hc.comp measurable_snd).mul (hF.comp ((measurable_const.prodMk measurable_fst).prodMk (measurable_neg3.comp measurable_snd)))
  have e1 : ∀ d, onFilm W H 1 (0, 0) d * ENNReal.ofReal (P d) * Adjoint.back (fun x d => hitOf Q x.2 d) F (j₀, cam.position) d =
      match hitOf Q cam.position d with | none => 0 | some x => onFilm W H 1 (0, 0) d * ENNReal.ofReal (P d) * F x (-d) := fun d => by
    cases ho : hitOf Q cam.position d with
    | none => rw [back_none (hit := fun x d => hitOf Q x.2 d) (x := (j₀, cam.position)) ho]; simp
    | some x => rw [back_some (hit := fun x d => hitOf Q x.2 d) (x := (j₀, cam.position)) ho]
  simp_rw [e1]
  refine (h.faceted.over cam.position (F := fun x d => onFilm W H 1 (0, 0) d * ENNReal.ofReal (P d) * F x (-d)) hFj).trans ?_
  have hd : Measurable fun x : Spot => -dirOf (x.2 - cam.position) := measurable_neg3.comp (measurable_dirOf.comp (measurable_sub3' measurable_snd measurable_const))
  have hi := h.measurable_importance' hH hPm
  have hs := h.faceted.measurable_slant.at hd
  have hFx := hF.at hd
  have hall : Measurable fun x : Spot => importance W Q cam H P x * (slant vertex x (-dirOf (x.2 - cam.position)) * F x (-dirOf (x.2 - cam.position))) := hi.mul (hs.mul hFx)
  rw [lintegral_surf hall]
  refine congrArg List.sum (List.map_congr_left fun g hg => lintegral_congr_ae ((inside_ae g.2).mono fun p hp => ?_))
  beta_reduce
  unfold importance
  dsimp only
  by_cases hv : Sees Q cam.position g.1 p
  · rw [if_pos hv, if_pos hv, h.faceted.slant_eq hg hp, V3.dot_neg_right, abs_neg]
    unfold geo
    rw [div_eq_mul_inv, div_eq_mul_inv, ENNReal.ofReal_mul (abs_nonneg _), ENNReal.ofReal_mul (hP0 _)]
    ring
  · rw [if_neg hv, if_neg hv, mul_zero, zero_mul]

theorem importance_apart (hn : W.st.camera = some n) (hc : W.cameraAt n = some cam) {H : ℝ × ℝ → ℝ≥0∞} {P : V3 ℝ → ℝ} {x : Spot} (h : importance W Q cam H P x ≠ 0) : V3.dot (x.2 - cam.position) (x.2 - cam.position) ≠ 0 := by
  intro e
  apply h
  have h0 : dirOf (x.2 - cam.position) = 0 := by rw [dot_self_zero e]; simp [dirOf]
  have hr : rasterPosition cam 0 = none := by simp [rasterPosition, toEye, V3.dot]
  have ho : onFilm W H 1 (0, 0) 0 = 0 := by simp [onFilm, rasterAt, hn, hc, hr]
  unfold importance
  rw [h0, ho, zero_mul, ite_self]

/-- The camera records the light that is scattered towards it. -/
theorem Matte.scattered_film (h : Matte W Q n cam Fs vertex m C f) (i : Fin 3) {P : V3 ℝ → ℝ} (hPm : Measurable P) (hP0 : ∀ d, 0 ≤ P d) {H : ℝ × ℝ → ℝ≥0∞} (hH : Measurable H) {L : Spot → V3 ℝ → ℝ≥0∞} (hL : Adjoint.Meas L) (j₀ : Int) :
    ∫⁻ d, onFilm W H 1 (0, 0) d * ENNReal.ofReal (P d) * Adjoint.back (fun x d => hitOf Q x.2 d) (Adjoint.scat solidAngle (kernel vertex C f i .EL) L) (j₀, cam.position) d ∂solidAngle =
      Adjoint.pair (surf Fs) solidAngle (slant vertex) (recorded W Q cam vertex C f i H P) L := by
  rw [h.onto_film hPm hP0 hH (Adjoint.Meas.scat (h.measurable_kernel i .EL) hL)]
  unfold Adjoint.pair
  have hd : Measurable fun x : Spot => -dirOf (x.2 - cam.position) := measurable_neg3.comp (measurable_dirOf.comp (measurable_sub3' measurable_snd measurable_const))
  have hrec := h.measurable_recorded i hH hPm
  have hsl := h.faceted.measurable_slant
  have hS := Adjoint.Meas.scat (σ := solidAngle) (h.measurable_kernel i .EL) hL
  have hi := h.measurable_importance' hH hPm
  have hA : Measurable fun x : Spot => importance W Q cam H P x * (slant vertex x (-dirOf (x.2 - cam.position)) * Adjoint.scat solidAngle (kernel vertex C f i .EL) L x (-dirOf (x.2 - cam.position))) :=
    hi.mul ((hsl.at hd).mul (hS.at hd))
  have hB : Measurable fun q : Spot × V3 ℝ => slant vertex q.1 q.2 * (recorded W Q cam vertex C f i H P q.1 q.2 * L q.1 q.2) := hsl.mul (hrec.mul hL)
  rw [lintegral_surf hA, lintegral_surf hB.lintegral_prod_right']
  refine congrArg List.sum (List.map_congr_left fun g hg => lintegral_congr fun p => ?_)
  set x : Spot := (g.1, p) with hxe
  set w := -dirOf (x.2 - cam.position) with hw
  by_cases h0 : importance W Q cam H P x = 0
  · unfold recorded
    simp [h0]
  · have hwu : V3.dot w w = 1 := by
      have hne := importance_apart h.camera h.cameraAt h0
      have := (dirOf_spec (lt_of_le_of_ne (dot_self_nonneg _) (Ne.symm hne))).1
      rw [hw]; simpa [V3.dot] using this
    unfold Adjoint.scat
    have hk : Measurable fun d => kernel vertex C f i .EL x w d := Adjoint.from_at (h.measurable_kernel i .EL) x w
    have hLx : Measurable fun d => L x d := hL.from x
    have hkL : Measurable fun d => kernel vertex C f i .EL x w d * L x d := hk.mul hLx
    have hskL : Measurable fun d => slant vertex x w * (kernel vertex C f i .EL x w d * L x d) := hkL.const_mul _
    rw [← lintegral_const_mul _ hkL, ← lintegral_const_mul _ hskL]
    refine lintegral_congr_ae (solidAngle_unit.mono fun d hd => ?_)
    beta_reduce
    have hsw := h.kernel_swap i (x := x) (List.mem_map.mpr ⟨g, hg, rfl⟩) hwu hd
    unfold recorded
    calc importance W Q cam H P x * (slant vertex x w * (kernel vertex C f i .EL x w d * L x d)) = importance W Q cam H P x * ((slant vertex x w * kernel vertex C f i .EL x w d) * L x d) := by ring
      _ = _ := by rw [hsw]; ring

/-- The camera records the lights it sees, and the light scattered towards it. -/
theorem Matte.film_split (h : Matte W Q n cam Fs vertex m C f) (i : Fin 3) {comps : SI → V3 ℝ → Finset ℕ} (hcomp : ∀ j ∈ Fs.map (·.1), ∀ p wi, comps (vertex j p) wi = C j) {E : Spot → V3 ℝ → ℝ≥0∞} (hE : Adjoint.Meas E)
    (hEe : ∀ j ∈ Fs.map (·.1), ∀ p w, emitted W i (vertex j p) w = E (j, p) w) {P : V3 ℝ → ℝ} (hPm : Measurable P) (hP : ∀ d, camEval cam d = some (V3.all (P d))) (hP0 : ∀ d, 0 ≤ P d)
    {dir : ℝ × ℝ → V3 ℝ} (hdir : ∀ q, primaryRay cam q.1 q.2 = some (dir q)) {H : ℝ × ℝ → ℝ≥0∞} (hH : Measurable H) (k : ℕ) :
    ∫⁻ q, H q * (optics W Q i comps).incoming (k + 1) (camVertex W n cam) (dir q) ∂uniform2 =
      ∫⁻ q, H q * (optics W Q i comps).incoming 1 (camVertex W n cam) (dir q) ∂uniform2 +
        Adjoint.pair (surf Fs) solidAngle (slant vertex) (recorded W Q cam vertex C f i H P) (Adjoint.light (fun x d => hitOf Q x.2 d) solidAngle (kernel vertex C f i .EL) E k) := by
  have hR := h.reversible i
  have hL := hR.light hE k
  have hS := Adjoint.Meas.scat (σ := solidAngle) (h.measurable_kernel i .EL) hL
  have hb := hR.back _ hE
  have hbS := hR.back _ hS
  have e : ∀ k q, (optics W Q i comps).incoming k (camVertex W n cam) (dir q) = Adjoint.light (fun x d => hitOf Q x.2 d) solidAngle (kernel vertex C f i .EL) E k (0, cam.position) (dir q) := fun k q =>
    h.incoming i hcomp hE hEe k (camVertex W n cam) 0 (dir q) (primary_unit h.proper (hdir q))
  simp_rw [e]
  have e1 : ∀ d, Adjoint.light (fun x d => hitOf Q x.2 d) solidAngle (kernel vertex C f i .EL) E (k + 1) (0, cam.position) d =
      Adjoint.back (fun x d => hitOf Q x.2 d) E (0, cam.position) d + Adjoint.back (fun x d => hitOf Q x.2 d) (Adjoint.scat solidAngle (kernel vertex C f i .EL) (Adjoint.light (fun x d => hitOf Q x.2 d) solidAngle (kernel vertex C f i .EL) E k)) (0, cam.position) d :=
    fun d => congrFun (congrFun (Adjoint.back_add _ _ _) _) d
  have e0 : ∀ d, Adjoint.light (fun x d => hitOf Q x.2 d) solidAngle (kernel vertex C f i .EL) E 1 (0, cam.position) d = Adjoint.back (fun x d => hitOf Q x.2 d) E (0, cam.position) d := fun d => by
    have : (fun y w => E y w + Adjoint.scat solidAngle (kernel vertex C f i .EL) (Adjoint.light (fun x d => hitOf Q x.2 d) solidAngle (kernel vertex C f i .EL) E 0) y w) = E := by
      funext y w
      simp [Adjoint.scat, Adjoint.light]
    show Adjoint.back _ (fun y w => E y w + Adjoint.scat solidAngle (kernel vertex C f i .EL) (Adjoint.light (fun x d => hitOf Q x.2 d) solidAngle (kernel vertex C f i .EL) E 0) y w) _ _ = _
    rw [this]
  simp_rw [e1, e0, mul_add]
  have hm : Measurable fun q => H q * Adjoint.back (fun x d => hitOf Q x.2 d) E (0, cam.position) (dir q) := hH.mul ((hb.from (0, cam.position)).comp (measurable_dir hdir))
  rw [lintegral_add_left hm, h.film hPm hP hdir hH (hbS.from (0, cam.position)), h.scattered_film i hPm hP0 hH hL]

end LM.Transport
