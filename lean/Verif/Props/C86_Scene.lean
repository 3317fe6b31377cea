import Verif.Props.C86_Emission
import Verif.Props.C86_Walk
import Verif.Props.C82_Scene
/-
  C86: scenes of triangles with reciprocal BSDFs. Light and importance are carried by the same kernel.
-/
namespace LM.Transport
open MeasureTheory LM LM.Surface LM.Material LM.Light LM.MathF LM.Path LM.Render LM.Solid Set
open scoped ENNReal

/-- What is required of a scene to trace light to its camera, and the camera's view to its lights. Its surfaces are the triangles `Fs`, each with its primitive; `vertex j p` is the interaction at the point p of
    the primitive j, `m j` its material, with components `C j`, and `f j c p wi wo` the BSDF of component c. -/
structure Matte (W : World) (Q : Query) (n : Int) (cam : Camera) (Fs : List (Int × Tri)) (vertex : Int → V3 ℝ → SI) (m : Int → Mat) (C : Int → Finset ℕ) (f : Int → ℕ → V3 ℝ → V3 ℝ → V3 ℝ → V3 ℝ) : Prop where
  camera : W.st.camera = some n
  cameraAt : W.cameraAt n = some cam
  proper : cam.Proper
  faceted : Faceted Q Fs vertex
  /-- rays meet the surfaces, not at grazing angles -/
  face : ∀ o d h, V3.dot d d = 1 → Q.isect o d = some h → h.primitive ∈ Fs.map (·.1) ∧ V3.dot d h.geom.n ≠ 0
  surface : ∀ j ∈ Fs.map (·.1), ∀ p, (vertex j p).kind = .surface ∧ OnSurface (vertex j p).geom ∧ W.materialAt j = some (m j)
  normal : ∀ j, Measurable fun p => (vertex j p).geom.n
  /-- all components scatter with BSDFs, and sample with the densities they report -/
  material : ∀ j ∈ Fs.map (·.1), ∀ p wi, V3.dot wi wi = 1 → V3.dot wi (vertex j p).geom.n ≠ 0 →
    MatOk (m j) (vertex j p).geom wi (C j) ∧ ∀ c ∈ C j, Smooth (m j) c (vertex j p).geom wi ∧ MaterialDensity (m j) c (vertex j p).geom wi
  /-- the BSDFs are not negative, and do not depend on the direction of transport -/
  eval : ∀ j ∈ Fs.map (·.1), ∀ c ∈ C j, ∀ p wi wo, V3.dot wi wi = 1 → V3.dot wo wo = 1 → V3.dot wi (vertex j p).geom.n ≠ 0 → NonNeg (f j c p wi wo) ∧ ∀ dir e, (m j).eval (vertex j p).geom wi wo c dir e = some (f j c p wi wo)
  measurable : ∀ j c, Measurable fun q : V3 ℝ × V3 ℝ × V3 ℝ => f j c q.1 q.2.1 q.2.2
  /-- they are reciprocal -/
  reciprocal : ∀ j ∈ Fs.map (·.1), ∀ c ∈ C j, ∀ p wi wo, V3.dot wi wi = 1 → V3.dot wo wo = 1 → V3.dot wi (vertex j p).geom.n ≠ 0 → V3.dot wo (vertex j p).geom.n ≠ 0 → f j c p wi wo = f j c p wo wi
  /-- no triangle is in the plane through the camera, and the camera is visible from the points it sees (except for points of area zero) -/
  sight : ∀ g ∈ Fs, ∀ᵐ p ∂triMeasure g.2, (toEye cam (p - cam.position)).z ≠ 0 ∧ (Q.visible (vertex g.1 p) (camVertex W n cam) = true ↔ Sees Q cam.position g.1 p)

/-! ### The kernel -/

/-- One component of the scattering at x, from wi to wo, with the cosine of the shading normal. -/
noncomputable def kern (vertex : Int → V3 ℝ → SI) (f : Int → ℕ → V3 ℝ → V3 ℝ → V3 ℝ → V3 ℝ) (i : Fin 3) (dir : TransDir) (c : ℕ) (x : Spot) (wi wo : V3 ℝ) : ℝ≥0∞ :=
  ENNReal.ofReal |V3.dot wo (vertex x.1 x.2).geom.n| * (ENNReal.ofReal (shadingNormalCorrection (vertex x.1 x.2).geom wi wo dir) * ENNReal.ofReal (chan i (f x.1 c x.2 wi wo)))

theorem kern_lt_top (vertex : Int → V3 ℝ → SI) (f : Int → ℕ → V3 ℝ → V3 ℝ → V3 ℝ → V3 ℝ) (i : Fin 3) (dir : TransDir) (c : ℕ) (x : Spot) (wi wo : V3 ℝ) : kern vertex f i dir c x wi wo < ⊤ :=
  ENNReal.mul_lt_top ENNReal.ofReal_lt_top (ENNReal.mul_lt_top ENNReal.ofReal_lt_top ENNReal.ofReal_lt_top)

/-- All components. -/
noncomputable def kernel (vertex : Int → V3 ℝ → SI) (C : Int → Finset ℕ) (f : Int → ℕ → V3 ℝ → V3 ℝ → V3 ℝ → V3 ℝ) (i : Fin 3) (dir : TransDir) (x : Spot) (wi wo : V3 ℝ) : ℝ≥0∞ := ∑ c ∈ C x.1, kern vertex f i dir c x wi wo

theorem snc_eq (g : Geom) (wi wo : V3 ℝ) (dir : TransDir) : shadingNormalCorrection g wi wo dir =
    if V3.dot wi g.gn * V3.dot wi g.n ≤ 0 ∨ V3.dot wo g.gn * V3.dot wo g.n ≤ 0 then 0 else if dir = .LE then V3.dot wi g.n * V3.dot wo g.gn / (V3.dot wo g.n * V3.dot wi g.gn) else 1 := by
  unfold shadingNormalCorrection
  simp only [localCos, toLocal, V3.dot_comm g.n]

theorem snc_nonneg' (g : Geom) (wi wo : V3 ℝ) (dir : TransDir) : 0 ≤ shadingNormalCorrection g wi wo dir := by
  rw [snc_eq]
  split_ifs with h1 h2
  · exact le_rfl
  · simp only [not_or, not_le] at h1
    have e : V3.dot wi g.n * V3.dot wo g.gn / (V3.dot wo g.n * V3.dot wi g.gn) = (V3.dot wi g.gn * V3.dot wi g.n) * (V3.dot wo g.gn * V3.dot wo g.n) / ((V3.dot wo g.n * V3.dot wi g.gn) ^ 2) := by
      have a : V3.dot wi g.gn ≠ 0 := left_ne_zero_of_mul h1.1.ne'
      have b : V3.dot wo g.n ≠ 0 := right_ne_zero_of_mul h1.2.ne'
      field_simp
    rw [e]
    exact div_nonneg (mul_nonneg h1.1.le h1.2.le) (sq_nonneg _)
  · exact zero_le_one

/-- Light and importance are scattered alike, up to the cosines of the geometric normal. -/
theorem snc_swap (g : Geom) (d d' : V3 ℝ) : |V3.dot d g.gn| * (|V3.dot d' g.n| * shadingNormalCorrection g d d' .EL) = |V3.dot d' g.gn| * (|V3.dot d g.n| * shadingNormalCorrection g d' d .LE) := by
  rw [snc_eq, snc_eq]
  by_cases h : V3.dot d g.gn * V3.dot d g.n ≤ 0 ∨ V3.dot d' g.gn * V3.dot d' g.n ≤ 0
  · rw [if_pos h, if_pos h.symm]; simp
  · have h' : ¬ (V3.dot d' g.gn * V3.dot d' g.n ≤ 0 ∨ V3.dot d g.gn * V3.dot d g.n ≤ 0) := fun hc => h hc.symm
    rw [if_neg h, if_neg h']
    simp only [reduceCtorEq, if_false, if_true, mul_one]
    simp only [not_or, not_le] at h
    have a : V3.dot d g.n ≠ 0 := right_ne_zero_of_mul h.1.ne'
    have b : V3.dot d' g.gn ≠ 0 := left_ne_zero_of_mul h.2.ne'
    have hp : 0 < V3.dot d' g.n * V3.dot d g.gn / (V3.dot d g.n * V3.dot d' g.gn) := by
      have e : V3.dot d' g.n * V3.dot d g.gn / (V3.dot d g.n * V3.dot d' g.gn) = (V3.dot d g.gn * V3.dot d g.n) * (V3.dot d' g.gn * V3.dot d' g.n) / ((V3.dot d g.n * V3.dot d' g.gn) ^ 2) := by field_simp
      rw [e]
      exact div_pos (mul_pos h.1 h.2) (by positivity)
    rw [← abs_of_pos hp, abs_div, abs_mul, abs_mul]
    field_simp

theorem measurable_snc' {g : V3 ℝ → Geom} (hn : Measurable fun p => (g p).n) (hg : Measurable fun p => (g p).gn) (dir : TransDir) : Measurable fun q : V3 ℝ × V3 ℝ × V3 ℝ => shadingNormalCorrection (g q.1) q.2.1 q.2.2 dir := by
  simp_rw [snc_eq]
  have n1 : Measurable fun q : V3 ℝ × V3 ℝ × V3 ℝ => (g q.1).n := hn.comp measurable_fst
  have g1 : Measurable fun q : V3 ℝ × V3 ℝ × V3 ℝ => (g q.1).gn := hg.comp measurable_fst
  have wi : Measurable fun q : V3 ℝ × V3 ℝ × V3 ℝ => q.2.1 := measurable_fst.comp measurable_snd
  have wo : Measurable fun q : V3 ℝ × V3 ℝ × V3 ℝ => q.2.2 := measurable_snd.comp measurable_snd
  refine Measurable.ite ((measurableSet_le ((measurable_dot3 wi g1).mul (measurable_dot3 wi n1)) measurable_const).union (measurableSet_le ((measurable_dot3 wo g1).mul (measurable_dot3 wo n1)) measurable_const)) measurable_const ?_
  cases dir
  case EL => simp only [reduceCtorEq, if_false]; exact measurable_const
  case LE => simp only [if_true]; exact ((measurable_dot3 wi n1).mul (measurable_dot3 wo g1)).div ((measurable_dot3 wo n1).mul (measurable_dot3 wi g1))

variable {W : World} {Q : Query} {n : Int} {cam : Camera} {Fs : List (Int × Tri)} {vertex : Int → V3 ℝ → SI} {m : Int → Mat} {C : Int → Finset ℕ} {f : Int → ℕ → V3 ℝ → V3 ℝ → V3 ℝ → V3 ℝ}

theorem Matte.measurable_kern_at (h : Matte W Q n cam Fs vertex m C f) (i : Fin 3) (dir : TransDir) (c : ℕ) (j : Int) : Measurable fun q : V3 ℝ × V3 ℝ × V3 ℝ => kern vertex f i dir c (j, q.1) q.2.1 q.2.2 := by
  unfold kern
  have n1 : Measurable fun q : V3 ℝ × V3 ℝ × V3 ℝ => (vertex j q.1).geom.n := (h.normal j).comp measurable_fst
  have wo : Measurable fun q : V3 ℝ × V3 ℝ × V3 ℝ => q.2.2 := measurable_snd.comp measurable_snd
  exact (continuous_abs.measurable.comp (measurable_dot3 wo n1)).ennreal_ofReal.mul ((measurable_snc' (g := fun p => (vertex j p).geom) (h.normal j) (h.faceted.gn j) dir).ennreal_ofReal.mul ((measurable_chan i).comp (h.measurable j c)).ennreal_ofReal)

theorem Matte.measurable_kern_from (h : Matte W Q n cam Fs vertex m C f) (i : Fin 3) (dir : TransDir) (c : ℕ) (x : Spot) (wi : V3 ℝ) : Measurable fun d => kern vertex f i dir c x wi d := by
  have e : Measurable fun d : V3 ℝ => ((x.2, wi, d) : V3 ℝ × V3 ℝ × V3 ℝ) := measurable_const.prodMk (measurable_const.prodMk measurable_id)
  have := (h.measurable_kern_at i dir c x.1).comp e
  exact this

theorem Matte.measurable_kernel_at (h : Matte W Q n cam Fs vertex m C f) (i : Fin 3) (dir : TransDir) (j : Int) : Measurable fun q : V3 ℝ × V3 ℝ × V3 ℝ => kernel vertex C f i dir (j, q.1) q.2.1 q.2.2 := by
  have e : (fun q : V3 ℝ × V3 ℝ × V3 ℝ => kernel vertex C f i dir (j, q.1) q.2.1 q.2.2) = fun q => ∑ c ∈ C j, kern vertex f i dir c (j, q.1) q.2.1 q.2.2 := funext fun q => rfl
  rw [e]
  exact Finset.measurable_fun_sum (C j) fun c _ => h.measurable_kern_at i dir c j

theorem Matte.measurable_kernel (h : Matte W Q n cam Fs vertex m C f) (i : Fin 3) (dir : TransDir) : Measurable fun q : Spot × V3 ℝ × V3 ℝ => kernel vertex C f i dir q.1 q.2.1 q.2.2 :=
  measurable_spot (F := fun x (q : V3 ℝ × V3 ℝ) => kernel vertex C f i dir x q.1 q.2) fun j => h.measurable_kernel_at i dir j

/-- The kernel of light and that of importance. -/
theorem Matte.kernel_swap (h : Matte W Q n cam Fs vertex m C f) (i : Fin 3) {x : Spot} (hx : x.1 ∈ Fs.map (·.1)) {d d' : V3 ℝ} (hd : V3.dot d d = 1) (hd' : V3.dot d' d' = 1) :
    slant vertex x d * kernel vertex C f i .EL x d d' = slant vertex x d' * kernel vertex C f i .LE x d' d := by
  unfold kernel
  rw [Finset.mul_sum, Finset.mul_sum]
  refine Finset.sum_congr rfl fun c hc => ?_
  unfold kern slant
  set g := (vertex x.1 x.2).geom with hg
  rw [V3.dot_comm g.gn d, V3.dot_comm g.gn d']
  have e1 := congrArg ENNReal.ofReal (snc_swap g d d')
  rw [ENNReal.ofReal_mul (abs_nonneg _), ENNReal.ofReal_mul (abs_nonneg _), ENNReal.ofReal_mul (abs_nonneg _), ENNReal.ofReal_mul (abs_nonneg _)] at e1
  by_cases a : V3.dot d g.n = 0
  · have e2 : shadingNormalCorrection g d d' .EL = 0 := by rw [snc_eq, if_pos (.inl (by rw [a, mul_zero]))]
    have e3 : shadingNormalCorrection g d' d .LE = 0 := by rw [snc_eq, if_pos (.inr (by rw [a, mul_zero]))]
    rw [e2, e3]; simp
  by_cases b : V3.dot d' g.n = 0
  · have e2 : shadingNormalCorrection g d d' .EL = 0 := by rw [snc_eq, if_pos (.inr (by rw [b, mul_zero]))]
    have e3 : shadingNormalCorrection g d' d .LE = 0 := by rw [snc_eq, if_pos (.inl (by rw [b, mul_zero]))]
    rw [e2, e3]; simp
  rw [h.reciprocal x.1 hx c hc x.2 d d' hd hd' a b, ← mul_assoc (ENNReal.ofReal |V3.dot d' g.n|), ← mul_assoc, e1]
  ring

/-! ### The scattering of a scene -/

/-- Scattering into directions, by the value of a component. -/
noncomputable def scatterBy (W : World) (i : Fin 3) (dir : TransDir) (sp : SI) (wi : V3 ℝ) (c : ℕ) : Measure (V3 ℝ) := (solidAngleAt sp.geom).withDensity fun d => Solid.value i (evalContrbDirection W sp wi d c dir false)

theorem Matte.value (h : Matte W Q n cam Fs vertex m C f) (dir : TransDir) {j : Int} (hj : j ∈ Fs.map (·.1)) {c : ℕ} (hc : c ∈ C j) (p : V3 ℝ) {wi wo : V3 ℝ} (hwi : V3.dot wi wi = 1) (hwo : V3.dot wo wo = 1)
    (hg : V3.dot wi (vertex j p).geom.n ≠ 0) (e : Bool) : evalContrbDirection W (vertex j p) wi wo c dir e = some (shadingNormalCorrection (vertex j p).geom wi wo dir • f j c p wi wo) := by
  obtain ⟨hk, _, hm⟩ := h.surface j hj p
  simp only [evalContrbDirection, hk, (h.faceted.at_point j p).1, hm, Option.bind_some, (h.eval j hj c hc p wi wo hwi hwo hg).2 dir e, Option.map_some]

theorem Matte.scatter (h : Matte W Q n cam Fs vertex m C f) (i : Fin 3) (dir : TransDir) {j : Int} (hj : j ∈ Fs.map (·.1)) {c : ℕ} (hc : c ∈ C j) (p : V3 ℝ) {wi : V3 ℝ} (hwi : V3.dot wi wi = 1)
    (hg : V3.dot wi (vertex j p).geom.n ≠ 0) : scatterBy W i dir (vertex j p) wi c = solidAngle.withDensity fun d => kern vertex f i dir c (j, p) wi d := by
  unfold scatterBy
  have hang : solidAngleAt (vertex j p).geom = projSolidAngle (vertex j p).geom.n := by simp [solidAngleAt, (h.faceted.at_point j p).2.2.2]
  have hk : Measurable fun q : V3 ℝ × V3 ℝ × V3 ℝ => shadingNormalCorrection (vertex j q.1).geom q.2.1 q.2.2 dir := measurable_snc' (g := fun p => (vertex j p).geom) (h.normal j) (h.faceted.gn j) dir
  have h1 : Measurable fun d => shadingNormalCorrection (vertex j p).geom wi d dir := hk.comp (measurable_const.prodMk (measurable_const.prodMk measurable_id))
  have h2 : Measurable fun d => chan i (f j c p wi d) := (measurable_chan i).comp ((h.measurable j c).comp (measurable_const.prodMk (measurable_const.prodMk measurable_id)))
  rw [hang, withDensity_congr_ae (g := fun d => ENNReal.ofReal (shadingNormalCorrection (vertex j p).geom wi d dir) * ENNReal.ofReal (chan i (f j c p wi d)))]
  · unfold projSolidAngle
    have h0 : Measurable fun d : V3 ℝ => ENNReal.ofReal |V3.dot d (vertex j p).geom.n| := (continuous_abs.measurable.comp (measurable_dotc _)).ennreal_ofReal
    have h3 : Measurable fun d => ENNReal.ofReal (shadingNormalCorrection (vertex j p).geom wi d dir) * ENNReal.ofReal (chan i (f j c p wi d)) := h1.ennreal_ofReal.mul h2.ennreal_ofReal
    rw [← withDensity_mul _ h0 h3]
    rfl
  · refine (projSA_unit _).mono fun d hd => ?_
    beta_reduce
    rw [h.value dir hj hc p hwi hd hg false, value_snc _ (snc_nonneg' _ _ _ _)]
    rfl

theorem Matte.scattered (h : Matte W Q n cam Fs vertex m C f) (i : Fin 3) {j : Int} (hj : j ∈ Fs.map (·.1)) {c : ℕ} (hc : c ∈ C j) (p : V3 ℝ) {wi : V3 ℝ} (hwi : V3.dot wi wi = 1)
    (hg : V3.dot wi (vertex j p).geom.n ≠ 0) : Transport.scattered W i (vertex j p) wi c = solidAngle.withDensity fun d => kern vertex f i .EL c (j, p) wi d := by
  rw [← h.scatter i .EL hj hc p hwi hg]
  have hspec : isSpecularComponent W (vertex j p) c = some false := by
    obtain ⟨hk, _, hm⟩ := h.surface j hj p
    simp only [isSpecularComponent, hk, (h.faceted.at_point j p).1, hm, Option.bind_some, ((h.material j hj p wi hwi hg).2 c hc).1.kind]
  unfold Transport.scattered
  rw [hspec]
  rfl

theorem Matte.scat_kernel (h : Matte W Q n cam Fs vertex m C f) (i : Fin 3) (dir : TransDir) {G : Spot → V3 ℝ → ℝ≥0∞} (hG : Adjoint.Meas G) (x : Spot) (wi : V3 ℝ) :
    Adjoint.scat solidAngle (kernel vertex C f i dir) G x wi = ∑ c ∈ C x.1, ∫⁻ d, kern vertex f i dir c x wi d * G x d ∂solidAngle := by
  unfold Adjoint.scat kernel
  simp_rw [Finset.sum_mul]
  have hGx : Measurable fun d => G x d := hG.comp (measurable_const.prodMk measurable_id)
  have hm : ∀ c ∈ C x.1, Measurable fun d => kern vertex f i dir c x wi d * G x d := fun c _ => (h.measurable_kern_from i dir c x wi).mul hGx
  exact lintegral_finsetSum _ hm

theorem back_none {X D : Type} [Neg D] {hit : X → D → Option X} {x : X} {d : D} (h : hit x d = none) (F : X → D → ℝ≥0∞) : Adjoint.back hit F x d = 0 := by
  unfold Adjoint.back
  rw [h]

theorem back_some {X D : Type} [Neg D] {hit : X → D → Option X} {x y : X} {d : D} (h : hit x d = some y) (F : X → D → ℝ≥0∞) : Adjoint.back hit F x d = F y (-d) := by
  unfold Adjoint.back
  rw [h]

/-- Light that arrives by at most k - 1 scatterings: as the rendering equation says. -/
theorem Matte.incoming (h : Matte W Q n cam Fs vertex m C f) (i : Fin 3) {comps : SI → V3 ℝ → Finset ℕ} (hcomp : ∀ j ∈ Fs.map (·.1), ∀ p wi, comps (vertex j p) wi = C j) {E : Spot → V3 ℝ → ℝ≥0∞} (hE : Adjoint.Meas E)
    (hEe : ∀ j ∈ Fs.map (·.1), ∀ p w, emitted W i (vertex j p) w = E (j, p) w) (k : ℕ) (sp : SI) (j₀ : Int) (d : V3 ℝ) (hd : V3.dot d d = 1) :
    (optics W Q i comps).incoming k sp d = Adjoint.light (fun x d => hitOf Q x.2 d) solidAngle (kernel vertex C f i .EL) E k (j₀, sp.geom.p) d := by
  have hlm : ∀ k, Adjoint.Meas (Adjoint.light (fun x d => hitOf Q x.2 d) solidAngle (kernel vertex C f i .EL) E k) := fun k => by
    induction k with
    | zero => exact measurable_const
    | succ k ih => exact h.faceted.measurable_back (hE.add (Adjoint.Meas.scat (h.measurable_kernel i .EL) ih))
  induction k generalizing sp j₀ d with
  | zero => rfl
  | succ k ih =>
    show (match Q.isect sp.geom.p d with | none => 0 | some hit => emitted W i hit (-d) + if hit.geom.infinite then 0 else ∑ c ∈ comps hit (-d), ∫⁻ d', (optics W Q i comps).incoming k hit d' ∂Transport.scattered W i hit (-d) c) = _
    cases hi : Q.isect sp.geom.p d with
    | none =>
      have ho : hitOf Q sp.geom.p d = none := by simp [hitOf, hi]
      exact (back_none (hit := fun x d => hitOf Q x.2 d) (x := (j₀, sp.geom.p)) ho _).symm
    | some hit =>
      have ho : hitOf Q sp.geom.p d = some (hit.primitive, hit.geom.p) := by simp [hitOf, hi]
      refine Eq.trans ?_ (back_some (hit := fun x d => hitOf Q x.2 d) (x := (j₀, sp.geom.p)) ho _).symm
      dsimp only
      obtain ⟨hj, hgr⟩ := h.face _ _ _ hd hi
      have hs := h.faceted.same _ _ _ hd hi
      set j := hit.primitive with hjd
      set p := hit.geom.p with hpd
      have hdn : V3.dot (-d) (-d) = 1 := by simpa [V3.dot] using hd
      have hgn : V3.dot (-d) (vertex j p).geom.n ≠ 0 := by
        rw [← hs, V3.dot_comm, V3.dot_neg_right, V3.dot_comm]; exact neg_ne_zero.mpr hgr
      rw [hs, hEe j hj p, (h.faceted.at_point j p).2.2.1, hcomp j hj]
      simp only [Bool.false_eq_true, if_false]
      congr 1
      have hkm : ∀ c, Measurable fun d' => kern vertex f i .EL c (j, p) (-d) d' := fun c => h.measurable_kern_from i .EL c (j, p) (-d)
      rw [h.scat_kernel i .EL (hlm k)]
      refine Finset.sum_congr rfl fun c hc => ?_
      rw [h.scattered i hj hc p hdn hgn, lintegral_withDensity_eq_lintegral_mul_non_measurable _ (hkm c) (Filter.Eventually.of_forall fun d' => kern_lt_top _ _ _ _ _ _ _ _)]
      refine lintegral_congr_ae (solidAngle_unit.mono fun d' hd' => ?_)
      beta_reduce
      have := ih (vertex j p) j d' hd'
      rw [(h.faceted.at_point j p).2.1] at this
      rw [Pi.mul_apply, this]

/-- Light and importance between the surfaces. -/
theorem Matte.reversible (h : Matte W Q n cam Fs vertex m C f) (i : Fin 3) : Adjoint.Reversible (surf Fs) solidAngle (slant vertex) (fun x d => hitOf Q x.2 d) (kernel vertex C f i .EL) (kernel vertex C f i .LE) where
  cos := h.faceted.measurable_slant
  back _ hF := h.faceted.measurable_back hF
  scatter := h.measurable_kernel i .EL
  scatter' := h.measurable_kernel i .LE
  reverse F G hF hG := by
    have hK : Measurable fun q : Spot × Spot × V3 ℝ => F q.1 q.2.2 * G q.2.1 (-q.2.2) :=
      (hF.comp (measurable_fst.prodMk (measurable_snd.comp measurable_snd))).mul (hG.comp ((measurable_fst.comp measurable_snd).prodMk (measurable_neg3.comp (measurable_snd.comp measurable_snd))))
    have e := h.faceted.reverse (K := fun x y d => F x d * G y (-d)) hK
    unfold Adjoint.pair Adjoint.back
    refine Eq.trans (lintegral_congr fun x => lintegral_congr fun d => ?_) (e.trans (lintegral_congr fun x => lintegral_congr fun d => ?_))
    · dsimp only
      cases hitOf Q x.2 d <;> simp
    · dsimp only
      cases hitOf Q x.2 d <;> simp
  reciprocal := by
    have hx : ∀ᵐ x ∂surf Fs, x.1 ∈ Fs.map (·.1) := by
      unfold surf
      refine ae_map_sum Fs _ _ fun g hg => ?_
      have hms : MeasurableSet {x : Spot | x.1 ∈ Fs.map (·.1)} := measurable_fst (t := {j : Int | j ∈ Fs.map (fun x : Int × Tri => x.1)}) MeasurableSet.of_discrete
      rw [ae_map_iff measurable_prodMk_left.aemeasurable hms]
      exact Filter.Eventually.of_forall fun p => List.mem_map_of_mem hg
    exact hx.mono fun x hx => solidAngle_unit.mono fun d hd => solidAngle_unit.mono fun d' hd' => h.kernel_swap i hx hd hd'

end LM.Transport
