import Verif.Props.C82_Direct
/-
  C82: scenes lit by a constant environment light.
-/
namespace LM.Transport
open MeasureTheory LM LM.Surface LM.Material LM.Light LM.MathF LM.Path LM.Render LM.Solid
open scoped ENNReal

/-- The environment is seen from o in direction d. -/
def SeesSky (Q : Query) (node : Int) (o d : V3 ℝ) : Prop := ∃ h, Q.isect o d = some h ∧ h.primitive = node

theorem lintegral_solidAngleAt_neg (g : Geom) {G : V3 ℝ → ℝ≥0∞} (hG : Measurable G) : ∫⁻ d, G (-d) ∂solidAngleAt g = ∫⁻ d, G d ∂solidAngleAt g := by
  have hc : Measurable fun d => ENNReal.ofReal (cosOf g d) := (measurable_cosOf g).ennreal_ofReal
  have hn : Measurable fun d : V3 ℝ => G (-d) := hG.comp measurable_neg3
  rw [solidAngleAt_eq, lintegral_withDensity_eq_lintegral_mul _ hc hG, lintegral_withDensity_eq_lintegral_mul _ hc hn]
  have : ∀ d : V3 ℝ, ((fun d => ENNReal.ofReal (cosOf g d)) * fun d => G (-d)) d = ((fun d => ENNReal.ofReal (cosOf g d)) * G) (-d) := fun d => by
    simp only [Pi.mul_apply]
    congr 2
    unfold cosOf
    rw [V3.dot_neg_left, abs_neg]
  simp_rw [this]
  exact lintegral_neg (hc.mul hG)

/-- What is required of intersections with the environment, seen from a point: the interaction faces the point, visibility is consistent with it, and it is seen in a measurable set of directions. -/
structure SkyAt (Q : Query) (node : Int) (junk : V3 ℝ) (sp : SI) : Prop where
  regular : sp.geom.degenerated = true ∨ sp.geom.n ≠ 0
  faces : ∀ d h, Q.isect sp.geom.p d = some h → h.primitive = node → h.geom.wo = -d
  visible : ∀ wo, V3.dot wo wo = 1 → (Q.visible sp ⟨.light, node, makeInfinite wo junk junk⟩ = true ↔ SeesSky Q node sp.geom.p (-wo))
  measurable : MeasurableSet {d | SeesSky Q node sp.geom.p d}

open Classical in
theorem seenOn_sky (Q : Query) (i : Fin 3) (node : Int) (sgn : V3 ℝ → Bool) (junk Le c : V3 ℝ) (r : ℝ) (sp : SI) (d : V3 ℝ) :
    seenOn Q i node (envconst sgn junk Le c r) sp d = if SeesSky Q node sp.geom.p d then ENNReal.ofReal (chan i Le) else 0 := by
  unfold seenOn SeesSky
  cases Q.isect sp.geom.p d with
  | none => simp
  | some h => simp [envconst]

/-- The constant environment light meets the requirements on lights. -/
theorem sky_ok (Q : Query) (i : Fin 3) (node : Int) (M : Aff ℝ) (sgn : V3 ℝ → Bool) (junk Le c : V3 ℝ) (r : ℝ) (hr : 0 < r) (hLe : NonNeg Le) (sp : SI) (h : SkyAt Q node junk sp) : LightOk Q i node M (envconst sgn junk Le c r) sp := by
  classical
  have hs : ∀ (p : ℝ × ℝ × ℝ) (q : ℝ × ℝ), (envconst sgn junk Le c r).sampleDirect ⟨p.1, p.2.1, p.2.2, q.1, q.2⟩ sp.geom M =
      rayOrFail (makeInfinite (sampleUniformSphere q.1 q.2) junk junk) (sampleUniformSphere q.1 q.2) Le (some (convertSAtoProjSA pdfSphere sp.geom (-(sampleUniformSphere q.1 q.2)))) := fun _ _ => rfl
  have hnn : ∀ d, 0 ≤ convertSAtoProjSA pdfSphere sp.geom d := fun d => convert_nonneg pdfSphere pdfSphere_pos.le sp.geom d
  have hin : ∀ (p : ℝ × ℝ × ℝ) (q : ℝ × ℝ) gL wo C, (envconst sgn junk Le c r).sampleDirect ⟨p.1, p.2.1, p.2.2, q.1, q.2⟩ sp.geom M = .ok gL wo C → gL = makeInfinite wo junk junk ∧ wo = sampleUniformSphere q.1 q.2 ∧
      ∃ P, convertSAtoProjSA pdfSphere sp.geom (-wo) = P ∧ 0 < P ∧ P • C = Le := by
    intro p q gL wo C e
    rw [hs] at e
    obtain ⟨h1, h2, P, h3, h4, h5⟩ := rayOrFail_inv _ _ _ _ _ _ _ e (fun x hx => by cases hx; exact hnn _)
    refine ⟨by rw [h1, h2], h2, P, ?_, h4, h5⟩
    rw [h2]; exact Option.some.inj h3
  refine ⟨rfl, fun F hF => ?_, ?_, fun d h' hd hi hp => ?_⟩
  · have hG : Measurable fun wo : V3 ℝ => if -wo ∈ {d | SeesSky Q node sp.geom.p d} then F (-wo) else 0 :=
      Measurable.ite (h.measurable.preimage measurable_neg3) (hF.comp measurable_neg3) measurable_const
    have e : ∀ p : ℝ × ℝ × ℝ, ∫⁻ q, worthRay i (fun g wo => if Q.visible sp ⟨.light, node, g⟩ then F (-wo) else 0) ((envconst sgn junk Le c r).sampleDirect ⟨p.1, p.2.1, p.2.2, q.1, q.2⟩ sp.geom M) ∂uniform2 =
        ∫⁻ wo, Solid.value i (some Le) * (if -wo ∈ {d | SeesSky Q node sp.geom.p d} then F (-wo) else 0) ∂solidAngleAt sp.geom := fun p => by
      refine Eq.trans ?_ (C81_envconst_direct sgn junk Le c r hr M sp.geom h.regular p.1 p.2.1 p.2.2 i _ hG)
      refine lintegral_congr_ae (int2_ae.mono fun q hq => ?_)
      beta_reduce
      cases e : (envconst sgn junk Le c r).sampleDirect ⟨p.1, p.2.1, p.2.2, q.1, q.2⟩ sp.geom M with
      | ok gL wo C =>
        obtain ⟨rfl, e2, _⟩ := hin p q gL wo C e
        have hun : V3.dot wo wo = 1 := by rw [e2]; exact (C34_sphere q.1 q.2 hq.1.1 hq.1.2.le).1
        simp only [worthRay]
        congr 1
        by_cases hv : SeesSky Q node sp.geom.p (-wo)
        · rw [if_pos ((h.visible wo hun).mpr hv), if_pos (show -wo ∈ {d | SeesSky Q node sp.geom.p d} from hv)]
        · rw [if_neg (fun hc => hv ((h.visible wo hun).mp hc)), if_neg (show ¬ -wo ∈ {d | SeesSky Q node sp.geom.p d} from hv)]
      | fail => rfl
      | undef => rfl
      | unsupported => rfl
    simp_rw [e]
    rw [int3_const, lintegral_solidAngleAt_neg sp.geom (G := fun d => Solid.value i (some Le) * (if d ∈ {d | SeesSky Q node sp.geom.p d} then F d else 0))
      (measurable_const.mul (Measurable.ite h.measurable hF measurable_const))]
    refine lintegral_congr fun d => ?_
    rw [seenOn_sky]
    simp only [Set.mem_ofPred_eq]
    split <;> simp [Solid.value]
  · refine Filter.Eventually.of_forall fun p => int2_ae.mono fun q hq => ?_
    refine ⟨?_, ?_, fun g wo C e hv => ?_⟩
    · rw [hs]
      rcases (hnn (-(sampleUniformSphere q.1 q.2))).lt_or_eq with h0 | h0
      · obtain ⟨C, e, _⟩ := rayOrFail_pos (makeInfinite (sampleUniformSphere q.1 q.2) junk junk) (sampleUniformSphere q.1 q.2) Le _ h0
        rw [e]; simp
      · rw [← h0, rayOrFail_zero]; simp
    · rw [hs]
      rcases (hnn (-(sampleUniformSphere q.1 q.2))).lt_or_eq with h0 | h0
      · obtain ⟨C, e, _⟩ := rayOrFail_pos (makeInfinite (sampleUniformSphere q.1 q.2) junk junk) (sampleUniformSphere q.1 q.2) Le _ h0
        rw [e]; simp
      · rw [← h0, rayOrFail_zero]; simp
    · obtain ⟨rfl, e2, P, hP, hP0, hC⟩ := hin p q g wo C e
      have hun : V3.dot wo wo = 1 := by rw [e2]; exact (C34_sphere q.1 q.2 hq.1.1 hq.1.2.le).1
      obtain ⟨hit, hi, hpr⟩ := (h.visible wo hun).mp hv
      have hCe : C = (1 / P) • Le := by rw [← hC, smul_smul, one_div_mul_cancel hP0.ne', one_smul]
      refine ⟨hun, by rw [hCe]; exact nonneg_smul (by positivity) hLe, rfl, hit, hi, hpr, ?_⟩
      have := h.faces _ hit hi hpr
      simp only [envconst, makeInfinite, this, neg_neg]
  · exact ⟨_, rfl, hnn _⟩

/-- A scene lit by one constant environment light. -/
structure SkyScene (W : World) (Q : Query) (n : Int) (cam : Camera) (comps : SI → V3 ℝ → Finset ℕ) (node : Int) (M : Aff ℝ) (sgn : V3 ℝ → Bool) (junk Le c : V3 ℝ) (r : ℝ) : Prop where
  regular : Regular W Q n cam comps
  camera : W.st.camera = some n
  one : W.st.lights.length = 1
  entry : Scene.lightPrimitiveIndexAt W.st 0 = some (M, node)
  index : Scene.lightIndexAt W.st node = some 0
  light : W.lightAt node = some (envconst sgn junk Le c r)
  radius : 0 < r
  nonneg : NonNeg Le
  /-- nothing else emits -/
  only : ∀ o d h, Q.isect o d = some h → (W.lightAt h.primitive).isSome → h.primitive = node
  sky : ∀ sp wi, Vertex W Q n cam sp wi → SkyAt Q node junk sp

theorem SkyScene.table {W : World} {Q : Query} {n : Int} {cam : Camera} {comps} {node : Int} {M : Aff ℝ} {sgn : V3 ℝ → Bool} {junk Le c : V3 ℝ} {r : ℝ} (h : SkyScene W Q n cam comps node M sgn junk Le c r) :
    LightTable W (fun _ => node) (fun _ => M) (fun _ => envconst sgn junk Le c r) where
  pos := by rw [h.one]; exact one_pos
  entry j hj := by
    have : j = 0 := by rw [h.one] at hj; omega
    subst this; exact h.entry
  index j hj := by
    have : j = 0 := by rw [h.one] at hj; omega
    subst this; exact h.index
  light _ _ := h.light

theorem SkyScene.lit {W : World} {Q : Query} {n : Int} {cam : Camera} {comps} {node : Int} {M : Aff ℝ} {sgn : V3 ℝ → Bool} {junk Le c : V3 ℝ} {r : ℝ} (h : SkyScene W Q n cam comps node M sgn junk Le c r) (i : Fin 3)
    {sp : SI} {wi : V3 ℝ} (hv : Vertex W Q n cam sp wi) : Lit W Q i (fun _ => node) (fun _ => M) (fun _ => envconst sgn junk Le c r) sp := by
  classical
  have hsk := h.sky sp wi hv
  refine ⟨fun j hj => sky_ok Q i node M sgn junk Le c r h.radius h.nonneg sp hsk, fun d hit hi hs => ⟨0, by rw [h.one]; exact one_pos, h.only _ d hit hi hs⟩, ?_, fun j _ => ?_⟩
  · have e : lightPdf W Q sp = fun d => if d ∈ {d | SeesSky Q node sp.geom.p d} ∩ {d | V3.dot d d = 1} then convertSAtoProjSA pdfSphere sp.geom d else 0 := by
      funext d
      unfold lightPdf
      cases hi : Q.isect sp.geom.p d with
      | none =>
        rw [if_neg]
        rintro ⟨⟨h', e, _⟩, _⟩
        rw [hi] at e; cases e
      | some hit =>
        dsimp only
        cases hL : W.lightAt hit.primitive with
        | none =>
          rw [if_neg]
          rintro ⟨⟨h', e, e2⟩, _⟩
          rw [hi] at e; cases e
          rw [e2, h.light] at hL; cases hL
        | some L =>
          dsimp only
          have hpr := h.only _ d hit hi (by rw [hL]; rfl)
          have hp : pdfDirect W sp (asLight hit) (-d) true = some (1 / (W.st.lights.length : ℝ) * convertSAtoProjSA pdfSphere sp.geom d) := by
            have e1 : asLight hit = ⟨.light, node, hit.geom⟩ := by simp only [asLight, ← hpr]
            rw [e1]
            refine h.table.pdf sp hit.geom (-d) 0 (by rw [h.one]; exact one_pos) _ ?_
            simp only [envconst, hsk.faces d hit hi hpr, neg_neg]
          rw [hp, h.one]
          have hss : d ∈ {d | SeesSky Q node sp.geom.p d} := ⟨hit, hi, hpr⟩
          by_cases hd : V3.dot d d = 1
          · rw [if_pos (show d ∈ {d | SeesSky Q node sp.geom.p d} ∩ {d | V3.dot d d = 1} from ⟨hss, hd⟩)]
            simp [hd]
          · rw [if_neg (fun hm : d ∈ {d | SeesSky Q node sp.geom.p d} ∩ {d | V3.dot d d = 1} => hd hm.2)]
            simp [hd]
    rw [e]
    exact Measurable.ite (hsk.measurable.inter (measurableSet_eq_fun measurable_dot measurable_const)) (measurable_convert pdfSphere sp.geom) measurable_const
  · have : seenOn Q i node (envconst sgn junk Le c r) sp = fun d => if d ∈ {d | SeesSky Q node sp.geom.p d} then ENNReal.ofReal (chan i Le) else 0 := by
      funext d
      rw [seenOn_sky]
      rfl
    rw [this]
    exact Measurable.ite hsk.measurable measurable_const measurable_const

/-- C82. What the path tracer computes in a scene lit by a constant environment, in every mode: the integral over the film of the radiance arriving along the primary rays. -/
theorem C82_sky {W : World} {Q : Query} {n : Int} {cam : Camera} {comps} {node : Int} {M : Aff ℝ} {sgn : V3 ℝ → Bool} {junk Le c : V3 ℝ} {r : ℝ} (h : SkyScene W Q n cam comps node M sgn junk Le c r) (i : Fin 3)
    (hmeas : ∀ k sp wi, Vertex W Q n cam sp wi → Measurable ((optics W Q i comps).incoming k sp)) (cfg : Cfg) (dir : ℝ × ℝ → V3 ℝ) (hdir : ∀ q, primaryRay cam q.1 q.2 = some (dir q)) (H : ℝ × ℝ → ℝ≥0∞) (hH : Measurable H)
    (u : RaySampleU) (uc : ℝ) (rs : ℕ → Rnd) :
    average (cfg.maxVerts - 1) 1 rs (fun rs' => measured i H (ptSample W Q cfg u uc rs')) = ∫⁻ q, H q * (optics W Q i comps).incoming (cfg.maxVerts - 1) (camVertex W n cam) (dir q) ∂uniform2 :=
  C82_scene h.regular h.camera h.table i (fun _ _ hv => h.lit i hv) hmeas cfg dir hdir H hH u uc rs

end LM.Transport
