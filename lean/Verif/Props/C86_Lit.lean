import Verif.Props.C86_Sources
/-
  C86: light tracing in scenes with lights without extent: the image.
-/
namespace LM.Transport
open MeasureTheory LM LM.Surface LM.Material LM.Light LM.MathF LM.Path LM.Render LM.Solid Set
open scoped ENNReal

variable {W : World} {Q : Query} {n : Int} {cam : Camera} {Fs : List (Int × Tri)} {vertex : Int → V3 ℝ → SI} {m : Int → Mat} {C : Int → Finset ℕ} {f : Int → ℕ → V3 ℝ → V3 ℝ → V3 ℝ → V3 ℝ}
variable {node : ℕ → Int} {M : ℕ → Aff ℝ} {Lt : ℕ → Light} {src : ℕ → Source} {sky : ℕ → Spot → V3 ℝ → ℝ≥0∞} {i : Fin 3}

/-- What the surfaces scatter, of what shines on them from a light without extent. -/
noncomputable def gleam (Q : Query) (vertex : Int → V3 ℝ → SI) (C : Int → Finset ℕ) (f : Int → ℕ → V3 ℝ → V3 ℝ → V3 ℝ → V3 ℝ) (i : Fin 3) (node : Int) (s : Source) (x : Spot) (w : V3 ℝ) : ℝ≥0∞ :=
  glare Q vertex i node s x * kernel vertex C f i .EL x w (toward s x)

/-- Of all lights. -/
noncomputable def gleams (W : World) (Q : Query) (vertex : Int → V3 ℝ → SI) (C : Int → Finset ℕ) (f : Int → ℕ → V3 ℝ → V3 ℝ → V3 ℝ → V3 ℝ) (i : Fin 3) (node : ℕ → Int) (src : ℕ → Source) (x : Spot) (w : V3 ℝ) : ℝ≥0∞ :=
  ∑ l ∈ Finset.range W.st.lights.length, gleam Q vertex C f i (node l) (src l) x w

/-- What is required of a light for that to be measurable. -/
structure Shines (Q : Query) (vertex : Int → V3 ℝ → SI) (i : Fin 3) (node : Int) (s : Source) : Prop where
  dim : Measurable (glare Q vertex i node s)
  aim : Measurable (toward s)
  unit : ∀ x, glare Q vertex i node s x ≠ 0 → V3.dot (toward s x) (toward s x) = 1

theorem Bulbs.shines (h : Bulbs W Q Fs vertex i node M Lt src sky) {l : ℕ} (hl : l < W.st.lights.length) : Shines Q vertex i (node l) (src l) := by
  rcases h.each l hl with ⟨e, _⟩ | ⟨_, _, ht⟩ | ⟨e, _⟩
  · rw [e]
    exact ⟨measurable_const, measurable_const, fun x hx => absurd rfl hx⟩
  · exact ⟨ht.glare, ht.toward, ht.unit⟩
  · rw [e]
    exact ⟨measurable_const, measurable_const, fun x hx => absurd rfl hx⟩

theorem Shines.scattered (hm : Matte W Q n cam Fs vertex m C f) {node : Int} {s : Source} (h : Shines Q vertex i node s) : Adjoint.Meas (gleam Q vertex C f i node s) := by
  have h1 : Measurable fun q : Spot × V3 ℝ => ((q.1, q.2, toward s q.1) : Spot × V3 ℝ × V3 ℝ) := measurable_fst.prodMk (measurable_snd.prodMk (h.aim.comp measurable_fst))
  have h2 := (hm.measurable_kernel i .EL).comp h1
  exact (h.dim.comp measurable_fst).mul h2

theorem Bulbs.scattered (hm : Matte W Q n cam Fs vertex m C f) (h : Bulbs W Q Fs vertex i node M Lt src sky) : Adjoint.Meas (gleams W Q vertex C f i node src) :=
  Finset.measurable_fun_sum _ fun _ hl => (h.shines (Finset.mem_range.mp hl)).scattered hm

/-! ### Light from the lights to the camera -/

/-- What the camera records of the light scattered once. -/
theorem Shines.once (hm : Matte W Q n cam Fs vertex m C f) {node : Int} {s : Source} (h : Shines Q vertex i node s) {H : ℝ × ℝ → ℝ≥0∞} (hH : Measurable H) {P : V3 ℝ → ℝ} (hPm : Measurable P) :
    ∫⁻ x, glare Q vertex i node s x * (slant vertex x (toward s x) * recorded W Q cam vertex C f i H P x (toward s x)) ∂surf Fs =
      ∫⁻ x, importance W Q cam H P x * (slant vertex x (-dirOf (x.2 - cam.position)) * gleam Q vertex C f i node s x (-dirOf (x.2 - cam.position))) ∂surf Fs := by
  have hd : Measurable fun x : Spot => -dirOf (x.2 - cam.position) := measurable_neg3.comp (measurable_dirOf.comp (measurable_sub3' measurable_snd measurable_const))
  have hsl := hm.faceted.measurable_slant
  have h1 : Measurable fun x : Spot => glare Q vertex i node s x * (slant vertex x (toward s x) * recorded W Q cam vertex C f i H P x (toward s x)) := h.dim.mul ((hsl.at h.aim).mul ((hm.measurable_recorded i hH hPm).at h.aim))
  have h2 : Measurable fun x : Spot => importance W Q cam H P x * (slant vertex x (-dirOf (x.2 - cam.position)) * gleam Q vertex C f i node s x (-dirOf (x.2 - cam.position))) :=
    (hm.measurable_importance' hH hPm).mul ((hsl.at hd).mul ((h.scattered hm).at hd))
  rw [lintegral_surf h1, lintegral_surf h2]
  refine congrArg List.sum (List.map_congr_left fun g hg => lintegral_congr fun p => ?_)
  set x : Spot := (g.1, p) with hxe
  have hx : x.1 ∈ Fs.map (·.1) := List.mem_map.mpr ⟨g, hg, rfl⟩
  unfold recorded gleam
  by_cases h0 : importance W Q cam H P x = 0
  · simp [h0]
  by_cases h3 : glare Q vertex i node s x = 0
  · simp [h3]
  set w := -dirOf (x.2 - cam.position) with hw
  have hwu : V3.dot w w = 1 := by
    have hne := importance_apart hm.camera hm.cameraAt h0
    have := (dirOf_spec (lt_of_le_of_ne (dot_self_nonneg _) (Ne.symm hne))).1
    rw [hw]; simpa [V3.dot] using this
  have hsw := hm.kernel_swap i hx hwu (h.unit x h3)
  calc glare Q vertex i node s x * (slant vertex x (toward s x) * (importance W Q cam H P x * kernel vertex C f i .LE x (toward s x) w))
      = importance W Q cam H P x * glare Q vertex i node s x * (slant vertex x (toward s x) * kernel vertex C f i .LE x (toward s x) w) := by ring
    _ = _ := by rw [← hsw]; ring

/-- What the surfaces scatter on. -/
theorem Shines.onward (hm : Matte W Q n cam Fs vertex m C f) {node : Int} {s : Source} (h : Shines Q vertex i node s) {G : Spot → V3 ℝ → ℝ≥0∞} (hG : Adjoint.Meas G) :
    ∫⁻ x, glare Q vertex i node s x * (slant vertex x (toward s x) * Adjoint.scat solidAngle (kernel vertex C f i .LE) G x (toward s x)) ∂surf Fs =
      Adjoint.pair (surf Fs) solidAngle (slant vertex) (gleam Q vertex C f i node s) G := by
  have hsl := hm.faceted.measurable_slant
  have hS := Adjoint.Meas.scat (σ := solidAngle) (hm.measurable_kernel i .LE) hG
  have h1 : Measurable fun x : Spot => glare Q vertex i node s x * (slant vertex x (toward s x) * Adjoint.scat solidAngle (kernel vertex C f i .LE) G x (toward s x)) := h.dim.mul ((hsl.at h.aim).mul (hS.at h.aim))
  have h2 : Measurable fun q : Spot × V3 ℝ => slant vertex q.1 q.2 * (gleam Q vertex C f i node s q.1 q.2 * G q.1 q.2) := hsl.mul ((h.scattered hm).mul hG)
  unfold Adjoint.pair
  rw [lintegral_surf h1, lintegral_surf h2.lintegral_prod_right']
  refine congrArg List.sum (List.map_congr_left fun g hg => lintegral_congr fun p => ?_)
  set x : Spot := (g.1, p) with hxe
  have hx : x.1 ∈ Fs.map (·.1) := List.mem_map.mpr ⟨g, hg, rfl⟩
  by_cases h3 : glare Q vertex i node s x = 0
  · simp [gleam, h3]
  have hk : Measurable fun d => kernel vertex C f i .LE x (toward s x) d := Adjoint.from_at (hm.measurable_kernel i .LE) x _
  have hkG : Measurable fun d => kernel vertex C f i .LE x (toward s x) d * G x d := hk.mul (hG.from x)
  unfold Adjoint.scat gleam
  rw [← lintegral_const_mul _ hkG, ← lintegral_const_mul _ (hkG.const_mul _)]
  refine lintegral_congr_ae (solidAngle_unit.mono fun d hd => ?_)
  beta_reduce
  have hsw := hm.kernel_swap i hx hd (h.unit x h3)
  calc glare Q vertex i node s x * (slant vertex x (toward s x) * (kernel vertex C f i .LE x (toward s x) d * G x d))
      = glare Q vertex i node s x * (slant vertex x (toward s x) * kernel vertex C f i .LE x (toward s x) d) * G x d := by ring
    _ = _ := by rw [← hsw]; ring

theorem pair_sum (s : Finset ℕ) {E : ℕ → Spot → V3 ℝ → ℝ≥0∞} {G : Spot → V3 ℝ → ℝ≥0∞} {cs : Spot → V3 ℝ → ℝ≥0∞} (hsl : Adjoint.Meas cs) (hE : ∀ l ∈ s, Adjoint.Meas (E l)) (hG : Adjoint.Meas G) :
    Adjoint.pair (surf Fs) solidAngle cs (fun x w => ∑ l ∈ s, E l x w) G = ∑ l ∈ s, Adjoint.pair (surf Fs) solidAngle cs (E l) G := by
  have h1 : ∀ l ∈ s, Measurable fun q : Spot × V3 ℝ => cs q.1 q.2 * (E l q.1 q.2 * G q.1 q.2) := fun l hl => hsl.mul ((hE l hl).mul hG)
  have h3 : ∀ l ∈ s, Measurable fun x : Spot => ∫⁻ d, cs x d * (E l x d * G x d) ∂solidAngle := fun l hl => (h1 l hl).lintegral_prod_right'
  have h4 : ∀ x, ∫⁻ d, cs x d * ((∑ l ∈ s, E l x d) * G x d) ∂solidAngle = ∑ l ∈ s, ∫⁻ d, cs x d * (E l x d * G x d) ∂solidAngle := fun x => by
    have h2 : ∀ l ∈ s, Measurable fun d => cs x d * (E l x d * G x d) := fun l hl => (h1 l hl).comp measurable_prodMk_left
    rw [← lintegral_finsetSum _ h2]
    exact lintegral_congr fun d => by rw [Finset.sum_mul, Finset.mul_sum]
  show ∫⁻ x, ∫⁻ d, cs x d * ((∑ l ∈ s, E l x d) * G x d) ∂solidAngle ∂surf Fs = ∑ l ∈ s, ∫⁻ x, ∫⁻ d, cs x d * (E l x d * G x d) ∂solidAngle ∂surf Fs
  rw [lintegral_congr h4]
  exact lintegral_finsetSum _ h3

/-- What the camera records of the light from lights without extent. -/
theorem Bulbs.film (hm : Matte W Q n cam Fs vertex m C f) (h : Bulbs W Q Fs vertex i node M Lt src sky) {H : ℝ × ℝ → ℝ≥0∞} (hH : Measurable H) {P : V3 ℝ → ℝ} (hPm : Measurable P) (hP0 : ∀ d, 0 ≤ P d) (k : ℕ) :
    glared W Q Fs vertex i node src (Adjoint.relay (fun x d => hitOf Q x.2 d) solidAngle (kernel vertex C f i .LE) (recorded W Q cam vertex C f i H P) (k + 1)) =
      ∫⁻ d, onFilm W H 1 (0, 0) d * ENNReal.ofReal (P d) * Adjoint.back (fun x d => hitOf Q x.2 d) (gleams W Q vertex C f i node src) (0, cam.position) d ∂solidAngle +
      Adjoint.pair (surf Fs) solidAngle (slant vertex) (recorded W Q cam vertex C f i H P) (Adjoint.light (fun x d => hitOf Q x.2 d) solidAngle (kernel vertex C f i .EL) (gleams W Q vertex C f i node src) k) := by
  have hR := hm.reversible i
  have hrec := hm.measurable_recorded i hH hPm
  have hrel := hR.back _ (hR.relay hrec k)
  have hsl := hm.faceted.measurable_slant
  have hd : Measurable fun x : Spot => -dirOf (x.2 - cam.position) := measurable_neg3.comp (measurable_dirOf.comp (measurable_sub3' measurable_snd measurable_const))
  have hS := Adjoint.Meas.scat (σ := solidAngle) (hm.measurable_kernel i .LE) hrel
  unfold glared
  have e1 : ∀ l ∈ Finset.range W.st.lights.length, ∫⁻ x, glare Q vertex i (node l) (src l) x * (slant vertex x (toward (src l) x) *
        Adjoint.relay (fun x d => hitOf Q x.2 d) solidAngle (kernel vertex C f i .LE) (recorded W Q cam vertex C f i H P) (k + 1) x (toward (src l) x)) ∂surf Fs =
      ∫⁻ x, importance W Q cam H P x * (slant vertex x (-dirOf (x.2 - cam.position)) * gleam Q vertex C f i (node l) (src l) x (-dirOf (x.2 - cam.position))) ∂surf Fs +
      Adjoint.pair (surf Fs) solidAngle (slant vertex) (gleam Q vertex C f i (node l) (src l))
        (Adjoint.back (fun x d => hitOf Q x.2 d) (Adjoint.relay (fun x d => hitOf Q x.2 d) solidAngle (kernel vertex C f i .LE) (recorded W Q cam vertex C f i H P) k)) := fun l hl => by
    have hs := h.shines (Finset.mem_range.mp hl)
    rw [← hs.once hm hH hPm, ← hs.onward hm hrel]
    have h1 : Measurable fun x : Spot => glare Q vertex i (node l) (src l) x * (slant vertex x (toward (src l) x) * recorded W Q cam vertex C f i H P x (toward (src l) x)) := hs.dim.mul ((hsl.at hs.aim).mul (hrec.at hs.aim))
    rw [← lintegral_add_left h1]
    refine lintegral_congr fun x => ?_
    show glare Q vertex i (node l) (src l) x * (slant vertex x (toward (src l) x) * (recorded W Q cam vertex C f i H P x (toward (src l) x) + Adjoint.scat solidAngle (kernel vertex C f i .LE)
        (Adjoint.back (fun x d => hitOf Q x.2 d) (Adjoint.relay (fun x d => hitOf Q x.2 d) solidAngle (kernel vertex C f i .LE) (recorded W Q cam vertex C f i H P) k)) x (toward (src l) x))) = _
    ring
  rw [Finset.sum_congr rfl e1, Finset.sum_add_distrib, hm.onto_film hPm hP0 hH (h.scattered hm), Adjoint.adjoint hR (h.scattered hm) hrec k]
  congr 1
  · have h2 : ∀ l ∈ Finset.range W.st.lights.length, Measurable fun x : Spot => importance W Q cam H P x * (slant vertex x (-dirOf (x.2 - cam.position)) * gleam Q vertex C f i (node l) (src l) x (-dirOf (x.2 - cam.position))) := fun l hl =>
      (hm.measurable_importance' hH hPm).mul ((hsl.at hd).mul (((h.shines (Finset.mem_range.mp hl)).scattered hm).at hd))
    rw [← lintegral_finsetSum _ h2]
    refine lintegral_congr fun x => ?_
    unfold gleams
    rw [Finset.mul_sum, Finset.mul_sum]
  · exact (pair_sum _ hsl (fun l hl => (h.shines (Finset.mem_range.mp hl)).scattered hm) hrel).symm

/-! ### The radiance -/

/-- What a component scatters of what the lights without extent shine on a surface. -/
theorem Bulbs.glow (hm : Matte W Q n cam Fs vertex m C f) (h : Bulbs W Q Fs vertex i node M Lt src sky) {j : Int} (hj : j ∈ Fs.map (·.1)) {c : ℕ} (hc : c ∈ C j) (p : V3 ℝ) {wi : V3 ℝ} (hwi : V3.dot wi wi = 1)
    (hg : V3.dot wi (vertex j p).geom.n ≠ 0) : glowing W Q i node src (vertex j p) wi c univ = ∑ l ∈ Finset.range W.st.lights.length, glare Q vertex i (node l) (src l) (j, p) * kern vertex f i .EL c (j, p) wi (toward (src l) (j, p)) := by
  haveI := singleton_v3'
  have hspec : isSpecularComponent W (vertex j p) c = some false := by
    obtain ⟨hk, _, hmt⟩ := hm.surface j hj p
    simp only [isSpecularComponent, hk, (hm.faceted.at_point j p).1, hmt, Option.bind_some, ((hm.material j hj p wi hwi hg).2 c hc).1.kind]
  unfold glowing
  rw [if_pos hspec, withDensity_apply _ MeasurableSet.univ, Measure.restrict_univ, shineOn, lintegral_finsetSum_measure]
  refine Finset.sum_congr rfl fun l hl => ?_
  have hu := (h.shines (Finset.mem_range.mp hl)).unit (j, p)
  rw [(hm.faceted.at_point j p).2.1]
  revert hu
  unfold glare toward
  dsimp only
  cases (src l).shine p with
  | none => intro _; simp
  | some b =>
    dsimp only
    intro hu
    by_cases hv : Q.visible (vertex j p) ⟨.light, node l, b.source⟩ = true
    · rw [if_pos hv, if_pos hv, lintegral_smul_measure, lintegral_dirac, smul_eq_mul]
      rw [if_pos hv] at hu
      have hcos : cosineAt (vertex j p).geom b.dir = |V3.dot b.dir (vertex j p).geom.n| := by simp [cosineAt, (hm.faceted.at_point j p).2.2.2, V3.dot_comm]
      rw [hcos, ENNReal.ofReal_mul' (abs_nonneg _)]
      by_cases h0 : ENNReal.ofReal (chan i b.irradiance) = 0
      · rw [h0, zero_mul, zero_mul, zero_mul]
      · rw [hm.value .EL hj hc p hwi (hu h0) hg false, value_snc _ (snc_nonneg' _ _ _ _)]
        unfold kern
        rw [mul_assoc]
        rfl
    · rw [if_neg hv, if_neg hv]
      simp

theorem Bulbs.glows (hm : Matte W Q n cam Fs vertex m C f) (h : Bulbs W Q Fs vertex i node M Lt src sky) {j : Int} (hj : j ∈ Fs.map (·.1)) (p : V3 ℝ) {wi : V3 ℝ} (hwi : V3.dot wi wi = 1)
    (hg : V3.dot wi (vertex j p).geom.n ≠ 0) : ∑ c ∈ C j, glowing W Q i node src (vertex j p) wi c univ = gleams W Q vertex C f i node src (j, p) wi := by
  rw [Finset.sum_congr rfl fun c hc => h.glow hm hj hc p hwi hg, Finset.sum_comm]
  refine Finset.sum_congr rfl fun l _ => ?_
  rw [← Finset.mul_sum]
  rfl

/-- Light that arrives by at most k scatterings, from lights with and without extent. -/
theorem Bulbs.radiance (hm : Matte W Q n cam Fs vertex m C f) (h : Bulbs W Q Fs vertex i node M Lt src sky) {comps : SI → V3 ℝ → Finset ℕ} (hcomp : ∀ j ∈ Fs.map (·.1), ∀ p wi, comps (vertex j p) wi = C j) (k : ℕ) (sp : SI) (j₀ : Int) (d : V3 ℝ) (hd : V3.dot d d = 1) :
    radianceLit W Q i comps node src (k + 1) sp d = Adjoint.light (fun x d => hitOf Q x.2 d) solidAngle (kernel vertex C f i .EL) (emission W Fs vertex i) (k + 1) (j₀, sp.geom.p) d +
      Adjoint.light (fun x d => hitOf Q x.2 d) solidAngle (kernel vertex C f i .EL) (gleams W Q vertex C f i node src) k (j₀, sp.geom.p) d := by
  have hR := hm.reversible i
  have hE := h.measurable hm
  have hE' := h.scattered hm
  have hEe : ∀ j ∈ Fs.map (·.1), ∀ p w, emitted W i (vertex j p) w = emission W Fs vertex i (j, p) w := fun j hj p w => (if_pos hj).symm
  induction k generalizing sp j₀ d with
  | zero =>
    rw [← hm.incoming i hcomp hE hEe 1 sp j₀ d hd]
    show _ = _ + (0 : ℝ≥0∞)
    rw [add_zero]
    unfold radianceLit
    rw [Optics.lit, Optics.incoming]
    cases (optics W Q i comps).isect sp.geom.p d with
    | none => rfl
    | some hit => simp [Optics.lit, Optics.incoming]
  | succ k ih =>
    show (match Q.isect sp.geom.p d with | none => 0 | some hit => emitted W i hit (-d) + if hit.geom.infinite then 0 else ∑ c ∈ comps hit (-d), (∫⁻ d', radianceLit W Q i comps node src (k + 1) hit d' ∂Transport.scattered W i hit (-d) c +
      if k + 1 = 0 then 0 else glowing W Q i node src hit (-d) c univ)) = _
    cases hi : Q.isect sp.geom.p d with
    | none =>
      have ho : hitOf Q sp.geom.p d = none := by simp [hitOf, hi]
      have e := fun F => back_none (hit := fun x d => hitOf Q x.2 d) (x := (j₀, sp.geom.p)) ho F
      show 0 = Adjoint.back _ _ _ _ + Adjoint.back _ _ _ _
      rw [e, e, add_zero]
    | some hit =>
      have ho : hitOf Q sp.geom.p d = some (hit.primitive, hit.geom.p) := by simp [hitOf, hi]
      have e := fun F => back_some (hit := fun x d => hitOf Q x.2 d) (x := (j₀, sp.geom.p)) ho F
      show _ = Adjoint.back _ _ _ _ + Adjoint.back _ _ _ _
      rw [e, e]
      dsimp only
      obtain ⟨hj, hgr⟩ := hm.face _ _ _ hd hi
      have hs := hm.faceted.same _ _ _ hd hi
      set j := hit.primitive with hjd
      set p := hit.geom.p with hpd
      have hdn : V3.dot (-d) (-d) = 1 := by simpa [V3.dot] using hd
      have hgn : V3.dot (-d) (vertex j p).geom.n ≠ 0 := by
        rw [← hs, V3.dot_comm, V3.dot_neg_right, V3.dot_comm]; exact neg_ne_zero.mpr hgr
      rw [hs, hEe j hj p, (hm.faceted.at_point j p).2.2.1, hcomp j hj]
      simp only [Bool.false_eq_true, if_false, Nat.add_one_ne_zero]
      rw [Finset.sum_add_distrib, h.glows hm hj p hdn hgn]
      have hkm : ∀ c, Measurable fun d' => kern vertex f i .EL c (j, p) (-d) d' := fun c => hm.measurable_kern_from i .EL c (j, p) (-d)
      have hL1 := hR.light hE (k + 1)
      have hL2 := hR.light hE' k
      rw [hm.scat_kernel i .EL hL1, hm.scat_kernel i .EL hL2]
      have e1 : ∀ c ∈ C j, ∫⁻ d', radianceLit W Q i comps node src (k + 1) (vertex j p) d' ∂Transport.scattered W i (vertex j p) (-d) c =
          ∫⁻ d', kern vertex f i .EL c (j, p) (-d) d' * Adjoint.light (fun x d => hitOf Q x.2 d) solidAngle (kernel vertex C f i .EL) (emission W Fs vertex i) (k + 1) (j, p) d' ∂solidAngle +
          ∫⁻ d', kern vertex f i .EL c (j, p) (-d) d' * Adjoint.light (fun x d => hitOf Q x.2 d) solidAngle (kernel vertex C f i .EL) (gleams W Q vertex C f i node src) k (j, p) d' ∂solidAngle := fun c hc => by
        rw [hm.scattered i hj hc p hdn hgn, lintegral_withDensity_eq_lintegral_mul_non_measurable _ (hkm c) (Filter.Eventually.of_forall fun d' => kern_lt_top _ _ _ _ _ _ _ _)]
        have hmm : Measurable fun d' => kern vertex f i .EL c (j, p) (-d) d' * Adjoint.light (fun x d => hitOf Q x.2 d) solidAngle (kernel vertex C f i .EL) (emission W Fs vertex i) (k + 1) (j, p) d' := (hkm c).mul (hL1.from (j, p))
        rw [← lintegral_add_left hmm]
        refine lintegral_congr_ae (solidAngle_unit.mono fun d' hd' => ?_)
        beta_reduce
        have := ih (vertex j p) j d' hd'
        rw [(hm.faceted.at_point j p).2.1] at this
        rw [Pi.mul_apply, this, mul_add]
      rw [Finset.sum_congr rfl e1, Finset.sum_add_distrib]
      ring

/-- What arrives on the film of light that surfaces send out. -/
theorem Matte.arrives (hm : Matte W Q n cam Fs vertex m C f) {E : Spot → V3 ℝ → ℝ≥0∞} (hE : Adjoint.Meas E) {H : ℝ × ℝ → ℝ≥0∞} (hH : Measurable H) {P : V3 ℝ → ℝ} (hPm : Measurable P) (hP : ∀ d, camEval cam d = some (V3.all (P d)))
    (hP0 : ∀ d, 0 ≤ P d) {dir : ℝ × ℝ → V3 ℝ} (hdir : ∀ q, primaryRay cam q.1 q.2 = some (dir q)) (k : ℕ) :
    ∫⁻ q, H q * Adjoint.light (fun x d => hitOf Q x.2 d) solidAngle (kernel vertex C f i .EL) E (k + 1) (0, cam.position) (dir q) ∂uniform2 =
      ∫⁻ d, onFilm W H 1 (0, 0) d * ENNReal.ofReal (P d) * Adjoint.back (fun x d => hitOf Q x.2 d) E (0, cam.position) d ∂solidAngle +
      Adjoint.pair (surf Fs) solidAngle (slant vertex) (recorded W Q cam vertex C f i H P) (Adjoint.light (fun x d => hitOf Q x.2 d) solidAngle (kernel vertex C f i .EL) E k) := by
  have hR := hm.reversible i
  have hL := hR.light hE k
  have hS := Adjoint.Meas.scat (σ := solidAngle) (hm.measurable_kernel i .EL) hL
  have hb := hR.back _ hE
  have hbS := hR.back _ hS
  have e1 : ∀ d, Adjoint.light (fun x d => hitOf Q x.2 d) solidAngle (kernel vertex C f i .EL) E (k + 1) (0, cam.position) d =
      Adjoint.back (fun x d => hitOf Q x.2 d) E (0, cam.position) d + Adjoint.back (fun x d => hitOf Q x.2 d) (Adjoint.scat solidAngle (kernel vertex C f i .EL)
        (Adjoint.light (fun x d => hitOf Q x.2 d) solidAngle (kernel vertex C f i .EL) E k)) (0, cam.position) d :=
    fun d => congrFun (congrFun (Adjoint.back_add _ _ _) _) d
  simp_rw [e1, mul_add]
  have hmm : Measurable fun q => H q * Adjoint.back (fun x d => hitOf Q x.2 d) E (0, cam.position) (dir q) := hH.mul ((hb.from (0, cam.position)).comp (measurable_dir hdir))
  rw [lintegral_add_left hmm, hm.film hPm hP hdir hH (hbS.from (0, cam.position)), hm.scattered_film i hPm hP0 hH hL, hm.film hPm hP hdir hH (hb.from (0, cam.position))]

/-- What the camera records of light from lights without extent, and what arrives of it on the film. -/
theorem Bulbs.arrives (hm : Matte W Q n cam Fs vertex m C f) (h : Bulbs W Q Fs vertex i node M Lt src sky) {H : ℝ × ℝ → ℝ≥0∞} (hH : Measurable H) {P : V3 ℝ → ℝ} (hPm : Measurable P) (hP : ∀ d, camEval cam d = some (V3.all (P d)))
    (hP0 : ∀ d, 0 ≤ P d) {dir : ℝ × ℝ → V3 ℝ} (hdir : ∀ q, primaryRay cam q.1 q.2 = some (dir q)) (k : ℕ) :
    glared W Q Fs vertex i node src (Adjoint.relay (fun x d => hitOf Q x.2 d) solidAngle (kernel vertex C f i .LE) (recorded W Q cam vertex C f i H P) k) =
      ∫⁻ q, H q * Adjoint.light (fun x d => hitOf Q x.2 d) solidAngle (kernel vertex C f i .EL) (gleams W Q vertex C f i node src) k (0, cam.position) (dir q) ∂uniform2 := by
  cases k with
  | zero =>
    unfold glared
    simp [Adjoint.relay, Adjoint.light]
  | succ k => rw [hm.arrives (h.scattered hm) hH hPm hP hP0 hdir k, h.film hm hH hPm hP0 k]

/-- What arrives at the surfaces from the lights at infinity. -/
noncomputable def skies (W : World) (sky : ℕ → Spot → V3 ℝ → ℝ≥0∞) (x : Spot) (w : V3 ℝ) : ℝ≥0∞ := ∑ l ∈ Finset.range W.st.lights.length, sky l x w

theorem Bulbs.sky_meas (h : Bulbs W Q Fs vertex i node M Lt src sky) {l : ℕ} (hl : l < W.st.lights.length) : Adjoint.Meas (sky l) := by
  rcases h.each l hl with ⟨_, e, _⟩ | ⟨e, _⟩ | ⟨_, _, ht⟩
  · rw [e]; exact measurable_const
  · rw [e]; exact measurable_const
  · exact ht.sky

theorem Bulbs.skies_meas (h : Bulbs W Q Fs vertex i node M Lt src sky) : Adjoint.Meas (skies W sky) :=
  Finset.measurable_fun_sum _ fun _ hl => h.sky_meas (Finset.mem_range.mp hl)

/-- What the surfaces scatter of it. -/
noncomputable def skylight (W : World) (vertex : Int → V3 ℝ → SI) (C : Int → Finset ℕ) (f : Int → ℕ → V3 ℝ → V3 ℝ → V3 ℝ → V3 ℝ) (i : Fin 3) (sky : ℕ → Spot → V3 ℝ → ℝ≥0∞) : Spot → V3 ℝ → ℝ≥0∞ :=
  Adjoint.scat solidAngle (kernel vertex C f i .EL) (skies W sky)

theorem Bulbs.skylight_meas (hm : Matte W Q n cam Fs vertex m C f) (h : Bulbs W Q Fs vertex i node M Lt src sky) : Adjoint.Meas (skylight W vertex C f i sky) :=
  Adjoint.Meas.scat (hm.measurable_kernel i .EL) h.skies_meas

/-- What the camera records of light from lights at infinity, and what arrives of it on the film. -/
theorem Bulbs.arrives_sky (hm : Matte W Q n cam Fs vertex m C f) (h : Bulbs W Q Fs vertex i node M Lt src sky) {H : ℝ × ℝ → ℝ≥0∞} (hH : Measurable H) {P : V3 ℝ → ℝ} (hPm : Measurable P) (hP : ∀ d, camEval cam d = some (V3.all (P d)))
    (hP0 : ∀ d, 0 ≤ P d) {dir : ℝ × ℝ → V3 ℝ} (hdir : ∀ q, primaryRay cam q.1 q.2 = some (dir q)) (k : ℕ) :
    skied W Fs vertex sky (Adjoint.relay (fun x d => hitOf Q x.2 d) solidAngle (kernel vertex C f i .LE) (recorded W Q cam vertex C f i H P) k) =
      ∫⁻ q, H q * Adjoint.light (fun x d => hitOf Q x.2 d) solidAngle (kernel vertex C f i .EL) (skylight W vertex C f i sky) k (0, cam.position) (dir q) ∂uniform2 := by
  have hR := hm.reversible i
  have hrec := hm.measurable_recorded i hH hPm
  have hsl := hm.faceted.measurable_slant
  have hS := h.skies_meas
  have hrel := hR.relay hrec
  have e0 : ∀ G, Adjoint.Meas G → skied W Fs vertex sky G = Adjoint.pair (surf Fs) solidAngle (slant vertex) G (skies W sky) := fun G hG => by
    rw [Adjoint.pair_comm]
    exact (pair_sum _ hsl (fun l hl => h.sky_meas (Finset.mem_range.mp hl)) hG).symm
  rw [e0 _ (hrel k)]
  cases k with
  | zero =>
    unfold Adjoint.pair
    simp [Adjoint.relay, Adjoint.light]
  | succ k =>
    have hback := hR.back _ (hrel k)
    rw [hm.arrives (h.skylight_meas hm) hH hPm hP hP0 hdir k, Adjoint.pair_comm]
    show Adjoint.pair (surf Fs) solidAngle (slant vertex) (skies W sky) (fun x d => recorded W Q cam vertex C f i H P x d + Adjoint.scat solidAngle (kernel vertex C f i .LE)
      (Adjoint.back (fun x d => hitOf Q x.2 d) (Adjoint.relay (fun x d => hitOf Q x.2 d) solidAngle (kernel vertex C f i .LE) (recorded W Q cam vertex C f i H P) k)) x d) = _
    rw [Adjoint.pair_add hsl hS hrec]
    congr 1
    · rw [Adjoint.pair_comm]
      exact (hm.scattered_film i hPm hP0 hH hS 0).symm
    · rw [Adjoint.pair_comm]
      refine (Adjoint.scat_adjoint hR hback hS).symm.trans ?_
      rw [Adjoint.pair_comm]
      exact (Adjoint.adjoint hR (h.skylight_meas hm) hrec k).symm

/-- Up to the light from infinity, what the light tracer computes. -/
theorem Bulbs.average (hm : Matte W Q n cam Fs vertex m C f) (h : Bulbs W Q Fs vertex i node M Lt src sky) {comps : SI → V3 ℝ → Finset ℕ} (hcomp : ∀ j ∈ Fs.map (·.1), ∀ p wi, comps (vertex j p) wi = C j)
    {dir : ℝ × ℝ → V3 ℝ} (hdir : ∀ q, primaryRay cam q.1 q.2 = some (dir q)) {H : ℝ × ℝ → ℝ≥0∞} (hH : Measurable H) {N : ℕ} (hN : 2 ≤ N) (rs : ℕ → Rnd) :
    averageLight (fun u => ∫⁻ uc, Transport.average (N - 2) 2 rs (fun rs' => measured i H (ltSample W Q N u uc rs')) ∂uniform1) + ∫⁻ q, H q * (optics W Q i comps).incoming 1 (camVertex W n cam) (dir q) ∂uniform2 =
      ∫⁻ q, H q * radianceLit W Q i comps node src (N - 1) (camVertex W n cam) (dir q) ∂uniform2 +
      ∫⁻ q, H q * Adjoint.light (fun x d => hitOf Q x.2 d) solidAngle (kernel vertex C f i .EL) (skylight W vertex C f i sky) (N - 2) (0, cam.position) (dir q) ∂uniform2 := by
  obtain ⟨P, hPm, hP⟩ := cam_measurable hm.proper
  have hE := h.measurable hm
  have hEe : ∀ j ∈ Fs.map (·.1), ∀ p w, emitted W i (vertex j p) w = emission W Fs vertex i (j, p) w := fun j hj p w => (if_pos hj).symm
  rw [lt_average_lit hm h hcomp hH hPm (fun d => (hP d).1) (fun d => (hP d).2.2) N rs, ← Adjoint.adjoint (hm.reversible i) hE (hm.measurable_recorded i hH hPm) (N - 2),
    h.arrives hm hH hPm (fun d => (hP d).2.1) (fun d => (hP d).2.2) hdir (N - 2), h.arrives_sky hm hH hPm (fun d => (hP d).2.1) (fun d => (hP d).2.2) hdir (N - 2)]
  have hs := hm.film_split i hcomp hE hEe hPm (fun d => (hP d).2.1) (fun d => (hP d).2.2) hdir hH (N - 2)
  have e : ∀ q, radianceLit W Q i comps node src (N - 1) (camVertex W n cam) (dir q) = (optics W Q i comps).incoming (N - 2 + 1) (camVertex W n cam) (dir q) +
      Adjoint.light (fun x d => hitOf Q x.2 d) solidAngle (kernel vertex C f i .EL) (gleams W Q vertex C f i node src) (N - 2) (0, cam.position) (dir q) := fun q => by
    have hu := primary_unit hm.proper (hdir q)
    rw [show N - 1 = N - 2 + 1 by omega, h.radiance hm hcomp (N - 2) (camVertex W n cam) 0 (dir q) hu, hm.incoming i hcomp hE hEe (N - 2 + 1) (camVertex W n cam) 0 (dir q) hu]
    rfl
  simp_rw [e, mul_add]
  have hmm : Measurable fun q => H q * Adjoint.light (fun x d => hitOf Q x.2 d) solidAngle (kernel vertex C f i .EL) (gleams W Q vertex C f i node src) (N - 2) (0, cam.position) (dir q) :=
    hH.mul ((((hm.reversible i).light (h.scattered hm) (N - 2)).from (0, cam.position)).comp (measurable_dir hdir))
  rw [lintegral_add_right _ hmm, hs]
  ring

/-! ### Light from infinity -/

/-- The rays of a scene, those that leave it meeting nothing. -/
def finite (Q : Query) : Query := ⟨fun o d => (Q.isect o d).filter fun h => !h.geom.infinite, Q.visible⟩

theorem finite_some {o d : V3 ℝ} {h : SI} (e : Q.isect o d = some h) : (finite Q).isect o d = if h.geom.infinite then none else some h := by
  unfold finite
  simp only [e]
  cases hi : h.geom.infinite <;> simp [hi]

theorem finite_none {o d : V3 ℝ} (e : Q.isect o d = none) : (finite Q).isect o d = none := by
  unfold finite
  simp [e]

/-- If no ray meets anything at infinity. -/
theorem finite_self (h : ∀ o d s, Q.isect o d = some s → s.geom.infinite = false) : finite Q = Q := by
  have : (finite Q).isect = Q.isect := by
    funext o d
    cases hi : Q.isect o d with
    | none => exact finite_none hi
    | some s => rw [finite_some hi, h o d s hi]; rfl
  show Query.mk (finite Q).isect Q.visible = Q
  rw [this]

/-- Light paths end where they leave the scene. -/
theorem lt_finite (N : ℕ) (u : RaySampleU) (uc : ℝ) (rs : ℕ → Rnd) : ltSample W (finite Q) N u uc rs = ltSample W Q N u uc rs := by
  have hw : ∀ k nv st, walk W (rouletteAt (2 / 10)) (ltBody W (finite Q)) rs k nv st = walk W (rouletteAt (2 / 10)) (ltBody W Q) rs k nv st := by
    intro k
    induction k with
    | zero => intro nv st; rfl
    | succ k ih =>
      intro nv st
      have hb : ltBody W (finite Q) nv st (rs nv) = (ltBody W Q nv st (rs nv)).map fun a => (a.1, a.2.filter fun h => !h.hit.geom.infinite) := by
        unfold ltBody
        have en : ltNee W (finite Q) nv st (rs nv) = ltNee W Q nv st (rs nv) := rfl
        rw [en]
        cases ltNee W Q nv st (rs nv) with
        | none => rfl
        | some a =>
          simp only [Option.bind_eq_bind, Option.bind_some]
          cases sampleDirection W (rs nv).dir st.sp st.wi st.comp .LE with
          | undef => rfl
          | fail => rfl
          | ok wo w =>
            dsimp only
            cases hi : Q.isect st.sp.geom.p wo with
            | none => rw [finite_none hi]; rfl
            | some s =>
              rw [finite_some hi]
              cases hs : s.geom.infinite <;> simp [hs, Option.filter]
      unfold walk
      rw [hb]
      cases ltBody W Q nv st (rs nv) with
      | none => rfl
      | some a =>
        obtain ⟨out, hop⟩ := a
        cases hop with
        | none => rfl
        | some hop =>
          cases hi : hop.hit.geom.infinite with
          | false => simp [hi, ih, Option.filter]
          | true => simp [hi, advance, Option.filter]
  unfold ltSample
  cases samplePrimaryRay W u .LE with
  | ok sp wo w =>
    dsimp only
    cases hi : Q.isect sp.geom.p wo with
    | none => rw [finite_none hi]
    | some s =>
      rw [finite_some hi]
      cases hs : s.geom.infinite
      · simp [hs, hw]
      · simp [hs]
  | _ => rfl

/-- What arrives from infinity along a ray. -/
noncomputable def fromSky (W : World) (Q : Query) (i : Fin 3) (o d : V3 ℝ) : ℝ≥0∞ := match Q.isect o d with
  | none => 0
  | some h => if h.geom.infinite then emitted W i h (-d) else 0

/-- Nothing arrives from infinity, if rays meet nothing there. -/
theorem fromSky_dark (hf : ∀ o d s, Q.isect o d = some s → s.geom.infinite = false) (x : Spot) (d : V3 ℝ) : fromSky W Q i x.2 d = skies W (fun _ => 0) x d := by
  have e : skies W (fun _ => 0) x d = 0 := by unfold skies; exact Finset.sum_eq_zero fun _ _ => rfl
  rw [e]
  unfold fromSky
  cases hi : Q.isect x.2 d with
  | none => rfl
  | some s => simp [hf _ _ _ hi]

/-- Light that arrives directly. -/
theorem lit_one (comps : SI → V3 ℝ → Finset ℕ) (sp : SI) (d : V3 ℝ) : radianceLit W Q i comps node src 1 sp d = (optics W Q i comps).incoming 1 sp d := by
  unfold radianceLit
  rw [Optics.lit, Optics.incoming]
  cases (optics W Q i comps).isect sp.geom.p d with
  | none => rfl
  | some hit => simp [Optics.lit, Optics.incoming]

/-- Light that arrives by at most k scatterings, from infinity and not from infinity. -/
theorem Matte.radiance_sky (hm : Matte W (finite Q) n cam Fs vertex m C f) (hS : Adjoint.Meas (skies W sky)) (hsky : ∀ (x : Spot) d, V3.dot d d = 1 → fromSky W Q i x.2 d = skies W sky x d)
    {comps : SI → V3 ℝ → Finset ℕ} (hcomp : ∀ j ∈ Fs.map (·.1), ∀ p wi, comps (vertex j p) wi = C j) (k : ℕ) (sp : SI) (j₀ : Int) (d : V3 ℝ) (hd : V3.dot d d = 1) :
    radianceLit W Q i comps node src (k + 1) sp d = radianceLit W (finite Q) i comps node src (k + 1) sp d +
      (skies W sky (j₀, sp.geom.p) d + Adjoint.light (fun x d => hitOf (finite Q) x.2 d) solidAngle (kernel vertex C f i .EL) (skylight W vertex C f i sky) k (j₀, sp.geom.p) d) := by
  have hR := hm.reversible i
  have hE : Adjoint.Meas (skylight W vertex C f i sky) := Adjoint.Meas.scat (hm.measurable_kernel i .EL) hS
  have unfoldLit : ∀ (Q : Query) k sp d, radianceLit W Q i comps node src (k + 1) sp d = (match Q.isect sp.geom.p d with | none => 0 | some hit => emitted W i hit (-d) + if hit.geom.infinite then 0 else ∑ c ∈ comps hit (-d),
      (∫⁻ d', radianceLit W Q i comps node src k hit d' ∂Transport.scattered W i hit (-d) c + if k = 0 then 0 else glowing W Q i node src hit (-d) c univ)) := fun _ _ _ _ => rfl
  have hlight0 : ∀ k x d, hitOf (finite Q) x.2 d = none → Adjoint.light (fun x d => hitOf (finite Q) x.2 d) solidAngle (kernel vertex C f i .EL) (skylight W vertex C f i sky) k x d = 0 := fun k x d ho => by
    cases k with
    | zero => rfl
    | succ k => exact back_none (hit := fun x d => hitOf (finite Q) x.2 d) ho _
  induction k generalizing sp j₀ d with
  | zero =>
    rw [show Adjoint.light (fun x d => hitOf (finite Q) x.2 d) solidAngle (kernel vertex C f i .EL) (skylight W vertex C f i sky) 0 (j₀, sp.geom.p) d = 0 from rfl, add_zero, ← hsky (j₀, sp.geom.p) d hd, unfoldLit, unfoldLit]
    unfold fromSky
    dsimp only
    cases hi : Q.isect sp.geom.p d with
    | none => rw [finite_none hi]; simp
    | some hit =>
      rw [finite_some hi]
      cases hs : hit.geom.infinite
      · have e : ∀ Q d', radianceLit W Q i comps node src 0 hit d' = 0 := fun _ _ => rfl
        simp [hs, e]
      · simp [hs]
  | succ k ih =>
    rw [← hsky (j₀, sp.geom.p) d hd, unfoldLit, unfoldLit]
    unfold fromSky
    dsimp only
    cases hi : Q.isect sp.geom.p d with
    | none =>
      have hn := finite_none hi
      rw [hn, hlight0 _ _ _ (by simp [hitOf, hn])]
      simp
    | some hit =>
      have hn := finite_some hi
      cases hs : hit.geom.infinite with
      | true =>
        rw [hs, if_pos rfl] at hn
        rw [hn, hlight0 _ _ _ (by simp [hitOf, hn])]
        simp [hs]
      | false =>
        rw [hs] at hn
        simp only [Bool.false_eq_true, if_false] at hn
        have ho : hitOf (finite Q) sp.geom.p d = some (hit.primitive, hit.geom.p) := by simp [hitOf, hn]
        rw [hn]
        simp only [hs, Bool.false_eq_true, if_false, Nat.add_one_ne_zero, zero_add]
        obtain ⟨hj, hgr⟩ := hm.face _ _ _ hd hn
        have hsm := hm.faceted.same _ _ _ hd hn
        show _ = _ + Adjoint.back _ _ _ _
        rw [back_some (hit := fun x d => hitOf (finite Q) x.2 d) (x := (j₀, sp.geom.p)) ho]
        set j := hit.primitive with hjd
        set p := hit.geom.p with hpd
        have hdn : V3.dot (-d) (-d) = 1 := by simpa [V3.dot] using hd
        have hgn : V3.dot (-d) (vertex j p).geom.n ≠ 0 := by
          rw [← hsm, V3.dot_comm, V3.dot_neg_right, V3.dot_comm]; exact neg_ne_zero.mpr hgr
        rw [hsm, hcomp j hj]
        have hkm : ∀ c, Measurable fun d' => kern vertex f i .EL c (j, p) (-d) d' := fun c => hm.measurable_kern_from i .EL c (j, p) (-d)
        have hL := hR.light hE k
        have hSL : Adjoint.Meas fun x w => skies W sky x w + Adjoint.light (fun x d => hitOf (finite Q) x.2 d) solidAngle (kernel vertex C f i .EL) (skylight W vertex C f i sky) k x w := hS.add hL
        have hsum : skylight W vertex C f i sky (j, p) (-d) + Adjoint.scat solidAngle (kernel vertex C f i .EL) (Adjoint.light (fun x d => hitOf (finite Q) x.2 d) solidAngle (kernel vertex C f i .EL) (skylight W vertex C f i sky) k) (j, p) (-d) =
            ∑ c ∈ C j, ∫⁻ d', kern vertex f i .EL c (j, p) (-d) d' * (skies W sky (j, p) d' + Adjoint.light (fun x d => hitOf (finite Q) x.2 d) solidAngle (kernel vertex C f i .EL) (skylight W vertex C f i sky) k (j, p) d') ∂solidAngle := by
          have a1 := congrFun (congrFun (Adjoint.scat_add (σ := solidAngle) (hm.measurable_kernel i .EL) (G := Adjoint.light (fun x d => hitOf (finite Q) x.2 d) solidAngle (kernel vertex C f i .EL) (skylight W vertex C f i sky) k) hS) (j, p)) (-d)
          exact a1.symm.trans (hm.scat_kernel i .EL hSL _ _)
        rw [hsum, add_assoc, ← Finset.sum_add_distrib]
        refine congrArg (emitted W i (vertex j p) (-d) + ·) (Finset.sum_congr rfl fun c hc => ?_)
        have eg : glowing W (finite Q) i node src (vertex j p) (-d) c univ = glowing W Q i node src (vertex j p) (-d) c univ := rfl
        rw [eg]
        have e1 : ∫⁻ d', radianceLit W Q i comps node src (k + 1) (vertex j p) d' ∂Transport.scattered W i (vertex j p) (-d) c =
            ∫⁻ d', radianceLit W (finite Q) i comps node src (k + 1) (vertex j p) d' ∂Transport.scattered W i (vertex j p) (-d) c +
            ∫⁻ d', kern vertex f i .EL c (j, p) (-d) d' * (skies W sky (j, p) d' + Adjoint.light (fun x d => hitOf (finite Q) x.2 d) solidAngle (kernel vertex C f i .EL) (skylight W vertex C f i sky) k (j, p) d') ∂solidAngle := by
          rw [hm.scattered i hj hc p hdn hgn]
          rw [lintegral_withDensity_eq_lintegral_mul_non_measurable _ (hkm c) (Filter.Eventually.of_forall fun d' => kern_lt_top _ _ _ _ _ _ _ _),
            lintegral_withDensity_eq_lintegral_mul_non_measurable _ (hkm c) (Filter.Eventually.of_forall fun d' => kern_lt_top _ _ _ _ _ _ _ _)]
          have hmm : Measurable fun d' => kern vertex f i .EL c (j, p) (-d) d' * (skies W sky (j, p) d' + Adjoint.light (fun x d => hitOf (finite Q) x.2 d) solidAngle (kernel vertex C f i .EL) (skylight W vertex C f i sky) k (j, p) d') := (hkm c).mul (hSL.from (j, p))
          rw [← lintegral_add_right _ hmm]
          refine lintegral_congr_ae (solidAngle_unit.mono fun d' hd' => ?_)
          beta_reduce
          have := ih (vertex j p) j d' hd'
          rw [(hm.faceted.at_point j p).2.1] at this
          rw [Pi.mul_apply, Pi.mul_apply, this, mul_add]
        rw [e1]
        ring

/-- Without lights without extent. -/
theorem lit_extended (comps : SI → V3 ℝ → Finset ℕ) (k : ℕ) (sp : SI) (d : V3 ℝ) : radianceLit W Q i comps node (fun _ => .extended) k sp d = (optics W Q i comps).incoming k sp d := by
  have hg : ∀ sp wi c, glowing W Q i node (fun _ => .extended) sp wi c univ = 0 := fun sp wi c => by
    unfold glowing
    split
    · have : shineOn Q i W.st.lights.length node (fun _ => .extended) sp = 0 := by
        unfold shineOn
        exact Finset.sum_eq_zero fun l _ => rfl
      rw [this]
      simp
    · rfl
  induction k generalizing sp d with
  | zero => rfl
  | succ k ih =>
    unfold radianceLit at ih ⊢
    rw [Optics.lit, Optics.incoming]
    cases (optics W Q i comps).isect sp.geom.p d with
    | none => rfl
    | some hit =>
      dsimp only
      simp_rw [ih, hg, ite_self, add_zero]

/-! ### The theorem -/

/-- C86. What the light tracer computes in scenes of triangles with area lights, lights without extent, whose rays carry to the surfaces what these lights shine on them (`Thrown`; point lights: `PointLamp.thrown`; directional
    lights: `BeamLamp.thrown`), and lights at infinity, whose rays carry to the surfaces what arrives from infinity (`Cast`; environment lights: `SkyLamp.cast`):
    the average over all random numbers of what one sample adds to the film, weighted with any function H of the position on the film, is the integral over the film of H times the radiance arriving at the camera along
    the primary ray, from all lights, up to the maximal length of paths, except for the light that arrives directly from the lights (`incoming 1`).
    `hsky`: what arrives directly from infinity along a ray is `skies`.
    Missing: as for `C86_lt_partial`, except for lights without extent and lights at infinity. -/
theorem C86_lamps_partial (hm : Matte W (finite Q) n cam Fs vertex m C f) (h : Bulbs W (finite Q) Fs vertex i node M Lt src sky) (hsky : ∀ (x : Spot) d, V3.dot d d = 1 → fromSky W Q i x.2 d = skies W sky x d)
    (comps : SI → V3 ℝ → Finset ℕ) (hcomp : ∀ j ∈ Fs.map (·.1), ∀ p wi, comps (vertex j p) wi = C j)
    (dir : ℝ × ℝ → V3 ℝ) (hdir : ∀ q, primaryRay cam q.1 q.2 = some (dir q)) (H : ℝ × ℝ → ℝ≥0∞) (hH : Measurable H) (N : ℕ) (hN : 2 ≤ N) (rs : ℕ → Rnd) :
    averageLight (fun u => ∫⁻ uc, average (N - 2) 2 rs (fun rs' => measured i H (ltSample W Q N u uc rs')) ∂uniform1) + ∫⁻ q, H q * (optics W Q i comps).incoming 1 (camVertex W n cam) (dir q) ∂uniform2 =
      ∫⁻ q, H q * radianceLit W Q i comps node src (N - 1) (camVertex W n cam) (dir q) ∂uniform2 := by
  have hun : ∀ q, V3.dot (dir q) (dir q) = 1 := fun q => primary_unit hm.proper (hdir q)
  have hdm := measurable_dir hdir
  have e1 : ∀ q, (optics W Q i comps).incoming 1 (camVertex W n cam) (dir q) = (optics W (finite Q) i comps).incoming 1 (camVertex W n cam) (dir q) + skies W sky (0, cam.position) (dir q) := fun q => by
    rw [← lit_one (node := node) (src := src), ← lit_one (node := node) (src := src), hm.radiance_sky h.skies_meas hsky hcomp 0 (camVertex W n cam) 0 (dir q) (hun q)]
    exact congrArg _ (add_zero _)
  have e2 : ∀ q, radianceLit W Q i comps node src (N - 1) (camVertex W n cam) (dir q) = radianceLit W (finite Q) i comps node src (N - 1) (camVertex W n cam) (dir q) +
      (skies W sky (0, cam.position) (dir q) + Adjoint.light (fun x d => hitOf (finite Q) x.2 d) solidAngle (kernel vertex C f i .EL) (skylight W vertex C f i sky) (N - 2) (0, cam.position) (dir q)) := fun q => by
    rw [show N - 1 = N - 2 + 1 by omega]
    exact hm.radiance_sky h.skies_meas hsky hcomp (N - 2) (camVertex W n cam) 0 (dir q) (hun q)
  have hs : Measurable fun q => H q * skies W sky (0, cam.position) (dir q) := hH.mul ((h.skies_meas.from (0, cam.position)).comp hdm)
  have hl : Measurable fun q => H q * Adjoint.light (fun x d => hitOf (finite Q) x.2 d) solidAngle (kernel vertex C f i .EL) (skylight W vertex C f i sky) (N - 2) (0, cam.position) (dir q) :=
    hH.mul ((((hm.reversible i).light (h.skylight_meas hm) (N - 2)).from (0, cam.position)).comp hdm)
  have hsl : Measurable fun q => H q * skies W sky (0, cam.position) (dir q) + H q * Adjoint.light (fun x d => hitOf (finite Q) x.2 d) solidAngle (kernel vertex C f i .EL) (skylight W vertex C f i sky) (N - 2) (0, cam.position) (dir q) := hs.add hl
  have hav := h.average hm hcomp hdir hH hN rs
  simp_rw [lt_finite] at hav
  simp_rw [e1, e2, mul_add]
  rw [lintegral_add_right _ hs, lintegral_add_right _ hsl, lintegral_add_right _ hl, ← add_assoc, hav]
  ring

/-- The radiance is measurable. -/
theorem Bulbs.measurable_radiance (hm : Matte W (finite Q) n cam Fs vertex m C f) (h : Bulbs W (finite Q) Fs vertex i node M Lt src sky) (hsky : ∀ (x : Spot) d, V3.dot d d = 1 → fromSky W Q i x.2 d = skies W sky x d)
    {comps : SI → V3 ℝ → Finset ℕ} (hcomp : ∀ j ∈ Fs.map (·.1), ∀ p wi, comps (vertex j p) wi = C j)
    (hun : ∀ o d, V3.dot d d ≠ 1 → Q.isect o d = none) (k : ℕ) (sp : SI) : Measurable (radianceLit W Q i comps node src k sp) ∧ Measurable ((optics W Q i comps).incoming k sp) := by
  have hE := h.measurable hm
  have hEe : ∀ j ∈ Fs.map (·.1), ∀ p w, emitted W i (vertex j p) w = emission W Fs vertex i (j, p) w := fun j hj p w => (if_pos hj).symm
  cases k with
  | zero => exact ⟨measurable_const, measurable_const⟩
  | succ k =>
    have hs : MeasurableSet {d : V3 ℝ | V3.dot d d = 1} := measurableSet_eq_fun (measurable_dot3 measurable_id measurable_id) measurable_const
    have h1 := ((hm.reversible i).light hE (k + 1)).from (0, sp.geom.p)
    have h2 := ((hm.reversible i).light (h.scattered hm) k).from (0, sp.geom.p)
    have h3 := (h.skies_meas.from (0, sp.geom.p)).add (((hm.reversible i).light (h.skylight_meas hm) k).from (0, sp.geom.p))
    have hnone : ∀ d, V3.dot d d ≠ 1 → (optics W Q i comps).isect sp.geom.p d = none := fun d hd => hun _ _ hd
    constructor
    · refine (congrArg Measurable (funext fun d => ?_)).mp (((h1.add h2).add h3).indicator hs)
      by_cases hd : V3.dot d d = 1
      · rw [indicator_of_mem (show d ∈ {d : V3 ℝ | V3.dot d d = 1} from hd), hm.radiance_sky h.skies_meas hsky hcomp k sp 0 d hd, h.radiance hm hcomp k sp 0 d hd]
        rfl
      · rw [indicator_of_notMem (show d ∉ {d : V3 ℝ | V3.dot d d = 1} from hd)]
        simp only [radianceLit, Optics.lit, hnone d hd]
    · refine (congrArg Measurable (funext fun d => ?_)).mp ((h1.add h3).indicator hs)
      by_cases hd : V3.dot d d = 1
      · rw [indicator_of_mem (show d ∈ {d : V3 ℝ | V3.dot d d = 1} from hd), ← lit_extended (node := node), hm.radiance_sky h.skies_meas hsky hcomp k sp 0 d hd, lit_extended, hm.incoming i hcomp hE hEe (k + 1) sp 0 d hd]
        rfl
      · rw [indicator_of_notMem (show d ∉ {d : V3 ℝ | V3.dot d d = 1} from hd)]
        simp only [Optics.incoming, hnone d hd]

/-- C86. Light tracing and path tracing with light sampling compute the same image, up to the lights that the camera sees, in scenes with area lights, lights without extent and lights at infinity: for every maximal length N,
    the image of the light tracer and the image of the path tracer with maximal length 2 (the lights that the camera sees) add up to the image of the path tracer with maximal length N, when primary rays are sampled in a
    pixel. `hl`: light sampling works at the vertices of paths (`LitBy`). `hinf`: what rays meet at infinity is a light.
    Missing: as for `C86_lamps_partial`. -/
theorem C86_lamps_same_image_partial (hm : Matte W (finite Q) n cam Fs vertex m C f) (h : Bulbs W (finite Q) Fs vertex i node M Lt src sky) (hsky : ∀ (x : Spot) d, V3.dot d d = 1 → fromSky W Q i x.2 d = skies W sky x d)
    (hinf : ∀ o d s, V3.dot d d = 1 → Q.isect o d = some s → s.geom.infinite = true → s.kind = .light ∧ (W.prim s.primitive).isSome)
    (comps : SI → V3 ℝ → Finset ℕ) (hcomp : ∀ j ∈ Fs.map (·.1), ∀ p wi, comps (vertex j p) wi = C j)
    (hsingle : comps (camVertex W n cam) 0 = {0}) (hun : ∀ o d, V3.dot d d ≠ 1 → Q.isect o d = none) (hl : ∀ sp wi, Vertex W Q n cam sp wi → LitBy W Q i node M Lt src sp)
    (H : ℝ × ℝ → ℝ≥0∞) (hH : Measurable H) (N : ℕ) (hN : 2 ≤ N) (mode : Mode) (hmode : mode ≠ .naive) (u : RaySampleU) (uc : ℝ) (rs : ℕ → Rnd) :
    averageLight (fun u => ∫⁻ uc, average (N - 2) 2 rs (fun rs' => measured i H (ltSample W Q N u uc rs')) ∂uniform1) + average 1 1 rs (fun rs' => measured i H (ptSample W Q ⟨mode, true, 2⟩ u uc rs')) =
      average (N - 1) 1 rs (fun rs' => measured i H (ptSample W Q ⟨mode, true, N⟩ u uc rs')) := by
  have hdir : ∀ q : ℝ × ℝ, ∃ d, primaryRay cam q.1 q.2 = some d := fun q => ⟨_, (C47_primary cam hm.proper q.1 q.2).choose_spec.1⟩
  choose dir hdir using hdir
  have hRf := hm.regular hcomp hsingle
  have hR : Regular W Q n cam comps := ⟨hRf.camera, hRf.proper, hRf.single, fun o d s hd e hf => hRf.surface o d s hd (by rw [finite_some e, hf]; rfl) hf, hinf⟩
  have hmr := h.measurable_radiance hm hsky hcomp hun
  have hpt : ∀ N, average (N - 1) 1 rs (fun rs' => measured i H (ptSample W Q ⟨mode, true, N⟩ u uc rs')) = ∫⁻ q, H q * radianceLit W Q i comps node src (N - 1) (camVertex W n cam) (dir q) ∂uniform2 := fun N => by
    rw [C100_scene_partial hR hm.camera h.table src i hl (fun k sp _ _ => (hmr k sp).2) (fun k sp _ _ => (hmr k sp).1) ⟨mode, true, N⟩ hmode dir hdir H hH u uc rs,
      if_pos (.inr rfl), add_zero]
  have h2 := hpt 2
  rw [show 2 - 1 = 1 from rfl] at h2
  simp_rw [lit_one] at h2
  rw [hpt N, h2]
  exact C86_lamps_partial hm h hsky comps hcomp dir hdir H hH N hN rs

end LM.Transport
