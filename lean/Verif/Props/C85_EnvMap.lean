import Verif.Props.C85_Homogeneous
import Verif.Props.C82_Map
/-
  C85: environment maps seen through a medium.
-/
namespace LM.Transport
open MeasureTheory LM LM.Surface LM.Material LM.Light LM.MathF LM.Path LM.Render LM.Solid LM.Bound LM.Volume LM.Tracking
open scoped ENNReal

theorem ae_four {P : (ℝ × ℝ) × (ℝ × ℝ) → Prop} (h : ∀ᵐ u ∂uniform4, P u) : ∀ᵐ p ∂uniform3, ∀ᵐ q ∂uniform2, P (q, (p.1, p.2.1)) := by
  have h1 : ∀ᵐ u ∂uniform2.prod uniform2, P u.swap := by
    have : Measure.QuasiMeasurePreserving (Prod.swap : (ℝ × ℝ) × (ℝ × ℝ) → (ℝ × ℝ) × (ℝ × ℝ)) (uniform2.prod uniform2) (uniform2.prod uniform2) := Measure.measurePreserving_swap.quasiMeasurePreserving
    exact this.ae h
  exact first2.quasiMeasurePreserving.ae (Measure.ae_ae_of_ae_prod h1)

/-- Light sampled from an environment map comes from the direction it is seen in, and almost never runs inside a face plane of the bound of a medium. -/
theorem map_seen {Q : Query} {node : Int} {M : Aff ℝ} (sgn : V3 ℝ → Bool) {junk : V3 ℝ} {tex : ℝ → ℝ → V3 ℝ} {ws : List ℝ} {w h : ℕ} (m : MapOk tex ws w h) {d2 : Dist.Dist2 ℝ} (hd : Dist.init Dist.fresh ws w h = some d2) (rot : ℝ) (c : V3 ℝ) (r : ℝ)
    {sp : SI} (hs : SkyAt Q node junk sp) (hinf : ∀ d hit, Q.isect sp.geom.p d = some hit → hit.primitive = node → hit.geom.infinite = true) (b : Box ℝ) : LightSeen Q b node M (env sgn junk tex d2 rot c r) sp := by
  obtain ⟨d2', hd', hden⟩ := C80_env_direct_partial sgn junk tex ws w h m.width m.height m.len m.weights m.rows rot c r M sp.geom 0
  rw [hd] at hd'; cases hd'
  obtain ⟨N, hN, h0, hcl⟩ := clear_ae b sp.geom.p
  have hac : solidAngleAt sp.geom ≪ solidAngle := by rw [solidAngleAt_eq]; exact withDensity_absolutelyContinuous _ _
  have h1 := (hden.2 N hN).2
  rw [setLIntegral_measure_zero _ _ (hac h0)] at h1
  filter_upwards [int3_ae, ae_four (measure_eq_zero_iff_ae_notMem.mp h1)] with p hp hq1
  filter_upwards [int2_ae, hq1] with q hq hc g wo C e hv
  have e : (env sgn junk tex d2 rot c r).sampleDirect ⟨p.1, p.2.1, 0, q.1, q.2⟩ sp.geom M = .ok g wo C := e
  obtain ⟨rfl, hun, _⟩ := (env_sampled m hd sgn junk rot c r M sp.geom q (p.1, p.2.1) 0 hq ⟨hp.1, hp.2.1⟩).2.2 g wo C e
  obtain ⟨hit, hi, hpr⟩ := (hs.visible wo hun).mp hv
  refine ⟨clear_neg.mpr (hcl wo fun hw => hc ⟨wo, ?_, hw⟩), hit, hi, hinf _ hit hi hpr, fun _ => rfl, fun hf => by cases hf⟩
  show resDir ((env sgn junk tex d2 rot c r).sampleDirect ⟨p.1, p.2.1, 0, q.1, q.2⟩ sp.geom M) = some wo
  rw [e]; rfl

/-- C85. What the volumetric path tracers compute in a scene with a medium that is lit by an environment map, if every row of the map has a bright pixel and the right half of the last row is black.
    The light itself is not sound for other maps: it gives pixels in the right half of the last row negative weights (C46_negation_env_weights). -/
theorem C85_map {Ω : Type} [MeasurableSpace Ω] {μ : Measure Ω} [IsProbabilityMeasure μ] {W : World} {Q : Query} {n : Int} {cam : Camera} {nm : Int} {comps : SI → V3 ℝ → Finset ℕ} {i : Fin 3} {F : Fog}
    {md : Ω → V3 ℝ → V3 ℝ → ℝ → ℝ → DistRes} {mt : Ω → V3 ℝ → V3 ℝ → ℝ → ℝ → Option (V3 ℝ)} (hf : Foggy μ W Q n cam nm comps i F md mt) {node : Int} {M : Aff ℝ} {sgn : V3 ℝ → Bool} {junk : V3 ℝ} {tex : ℝ → ℝ → V3 ℝ} {lum : ℕ → ℝ} {w h : ℕ}
    {rot : ℝ} {c : V3 ℝ} {r : ℝ} {d2 : Dist.Dist2 ℝ} (hd : Dist.init Dist.fresh (envWeights lum w h) w h = some d2)
    (hone : W.st.lights.length = 1) (hentry : Scene.lightPrimitiveIndexAt W.st 0 = some (M, node)) (hindex : Scene.lightIndexAt W.st node = some 0) (hlight : W.lightAt node = some (env sgn junk tex d2 rot c r))
    (honly : ∀ o d h, Q.isect o d = some h → (W.lightAt h.primitive).isSome → h.primitive = node) (hsky : ∀ sp wi, FogVertex W Q n cam nm sp wi → SkyAt Q node junk sp)
    (hinf : ∀ o d hit, Q.isect o d = some hit → hit.primitive = node → hit.geom.infinite = true) (hdepth : ∀ sp wi, FogVertex W Q n cam nm sp wi → Measurable (F.depth Q sp))
    (ht : Measurable fun q : ℝ × ℝ => tex q.1 q.2) (hn : ∀ a b, NonNeg (tex a b)) (hw : 0 < w) (hh : 0 < h) (hlum : ∀ i, 0 ≤ lum i)
    (hlast : ∀ x < w, w ≤ 2 * x → lum ((h - 1) * w + x) = 0) (hrow : ∀ y < h, ∃ x < w, 0 < lum (y * w + x))
    (hblack : ∀ x y : ℕ, x < w → y < h → lum (y * w + x) = 0 → ∀ a b : ℝ, 0 ≤ a → a < 1 → 0 ≤ b → b < 1 → tex ((x + a) / w) ((y + b) / h) = 0)
    (naive : Bool) (dir : ℝ × ℝ → V3 ℝ) (hdir : ∀ q, primaryRay cam q.1 q.2 = some (dir q)) (q0 : ℝ) (hq0 : 0 ≤ q0) (hq1 : q0 < 1) (maxVerts : ℕ)
    (H : ℝ × ℝ → ℝ≥0∞) (hH : Measurable H) (hHf : ∀ q, H q ≠ ⊤) (u : RaySampleU) (uc : ℝ) (rs : ℕ → Rnd) (ms : ℕ → Ω × Ω) :
    averageVol μ (maxVerts - 1) 1 rs ms (fun rs' ms' => measured i H (volSample W (volQuery (fogDist W Q md) (fogTr W Q mt) ms') naive q0 maxVerts u uc rs')) =
      ∫⁻ q, H q * F.incoming (optics W Q i comps) (maxVerts - 1) (camVertex W n cam) (dir q) ∂uniform2 := by
  have h0 : ∀ j < W.st.lights.length, j = 0 := fun j hj => by rw [hone] at hj; omega
  have hT : LightTable W (fun _ => node) (fun _ => M) (fun _ => env sgn junk tex d2 rot c r) :=
    ⟨by rw [hone]; exact one_pos, fun j hj => by rw [h0 j hj]; exact hentry, fun j hj => by rw [h0 j hj]; exact hindex, fun _ _ => hlight⟩
  have m := envWeights_ok tex lum w h ht hn hw hh hlum hlast hrow hblack
  refine C85_scene hf naive (fun _ => ⟨hT, fun sp wi hv => ⟨lit_of hT sp (fun j _ => .map sgn junk tex _ w h d2 rot c r m hd (hsky sp wi hv)) (fun d hit hi hs => ⟨0, by rw [hone]; exact one_pos, honly _ d hit hi hs⟩) i,
    fun j _ => map_seen sgn m hd rot c r (hsky sp wi hv) (fun d hit hi hp => hinf _ d hit hi hp) F.bound, hdepth sp wi hv⟩⟩) dir hdir q0 hq0 hq1 maxVerts H hH hHf u uc rs ms

/-- A map of one column and two rows meets the requirements. -/
example : (∀ x < 1, 1 ≤ 2 * x → (fun _ => (1 : ℝ)) ((2 - 1) * 1 + x) = 0) ∧ ∀ y < 2, ∃ x < 1, 0 < (fun _ => (1 : ℝ)) (y * 1 + x) := ⟨fun x hx hl => by omega, fun _ _ => ⟨0, one_pos, one_pos⟩⟩
/-- A map of four columns and two rows, of which the right half of the last row is black, does. -/
example : (∀ x < 4, 4 ≤ 2 * x → (fun i => if i < 6 then (1 : ℝ) else 0) ((2 - 1) * 4 + x) = 0) ∧ ∀ y < 2, ∃ x < 4, 0 < (fun i => if i < 6 then (1 : ℝ) else 0) (y * 4 + x) := by
  refine ⟨fun x hx hl => if_neg (by omega), fun y hy => ⟨0, by norm_num, ?_⟩⟩
  beta_reduce
  rw [if_pos (by omega)]; exact one_pos

end LM.Transport
