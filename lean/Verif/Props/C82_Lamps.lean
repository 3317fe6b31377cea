import Verif.Props.C82_EnvMap
import Verif.Props.C82_Area
/-
  C82: scenes with any number of area lights, constant environments and environment maps.
-/
namespace LM.Transport
open MeasureTheory LM LM.Surface LM.Material LM.Light LM.MathF LM.Path LM.Render LM.Solid
open scoped ENNReal

/-- The points at which a primitive is met, and their normals, are measurable functions of the direction. -/
structure MeasurableHits (Q : Query) (node : Int) (x : V3 ℝ) : Prop where
  seen : MeasurableSet {d | SeesSky Q node x d}
  hit : ∃ P N : V3 ℝ → V3 ℝ, Measurable P ∧ Measurable N ∧ ∀ d h, Q.isect x d = some h → h.primitive = node → h.geom.p = P d ∧ h.geom.n = N d

/-- What is required of a light seen from sp: a constant environment, an environment map or an area light. -/
inductive LightAt (Q : Query) (node : Int) (M : Aff ℝ) (sp : SI) : Light → Prop
  | sky (sgn : V3 ℝ → Bool) (junk Le c : V3 ℝ) (r : ℝ) (hr : 0 < r) (hLe : NonNeg Le) (h : SkyAt Q node junk sp) : LightAt Q node M sp (envconst sgn junk Le c r)
  | area (sgn : V3 ℝ → Bool) (junk Ke : V3 ℝ) (ts : List Tri) (hA : 0 < (ts.map triArea).sum) (hM : M.det ≠ 0) (hS : ScalesArea M ts) (hKe : NonNeg Ke) (h : AreaAt Q node M ts sp)
      (hm : MeasurableHits Q node sp.geom.p) : LightAt Q node M sp (LM.Light.area sgn junk Ke ts)
  | map (sgn : V3 ℝ → Bool) (junk : V3 ℝ) (tex : ℝ → ℝ → V3 ℝ) (ws : List ℝ) (w h : Nat) (d2 : Dist.Dist2 ℝ) (rot : ℝ) (c : V3 ℝ) (r : ℝ) (m : MapOk tex ws w h) (hd : Dist.init Dist.fresh ws w h = some d2) (hs : SkyAt Q node junk sp) :
      LightAt Q node M sp (env sgn junk tex d2 rot c r)

theorem LightAt.ok {Q : Query} {node : Int} {M : Aff ℝ} {sp : SI} {L : Light} (h : LightAt Q node M sp L) (i : Fin 3) : LightOk Q i node M L sp := by
  cases h with
  | sky sgn junk Le c r hr hLe h => exact sky_ok Q i node M sgn junk Le c r hr hLe sp h
  | area sgn junk Ke ts hA hM hS hKe h hm => exact area_ok Q i node M sgn junk Ke ts hA hM hS hKe sp h
  | map sgn junk tex ws w h d2 rot c r m hd hs => exact map_ok Q i node M sgn junk m hd rot c r sp hs

theorem LightAt.seen {Q : Query} {node : Int} {M : Aff ℝ} {sp : SI} {L : Light} (h : LightAt Q node M sp L) : MeasurableSet {d | SeesSky Q node sp.geom.p d} := by
  cases h with
  | sky sgn junk Le c r hr hLe h => exact h.measurable
  | area sgn junk Ke ts hA hM hS hKe h hm => exact hm.seen
  | map sgn junk tex ws w h d2 rot c r m hd hs => exact hs.measurable

open Classical in
theorem LightAt.seenOn {Q : Query} {node : Int} {M : Aff ℝ} {sp : SI} {L : Light} (h : LightAt Q node M sp L) (i : Fin 3) : Measurable (seenOn Q i node L sp) := by
  have hs := h.seen
  cases h with
  | sky sgn junk Le c r hr hLe h =>
    have : Transport.seenOn Q i node (envconst sgn junk Le c r) sp = fun d => if d ∈ {d | SeesSky Q node sp.geom.p d} then ENNReal.ofReal (chan i Le) else 0 := funext fun d => by rw [seenOn_sky]; rfl
    rw [this]
    exact Measurable.ite hs measurable_const measurable_const
  | area sgn junk Ke ts hA hM hS hKe h hm =>
    obtain ⟨P, N, hP, hN, hh⟩ := hm.hit
    have : Transport.seenOn Q i node (LM.Light.area sgn junk Ke ts) sp = fun d => if d ∈ {d | SeesSky Q node sp.geom.p d} then front i Ke (N d) (-d) else 0 := funext fun d => by
      unfold Transport.seenOn
      cases hi : Q.isect sp.geom.p d with
      | none =>
        rw [if_neg]
        rintro ⟨h', e, _⟩
        rw [hi] at e; cases e
      | some hit =>
        dsimp only
        by_cases hp : hit.primitive = node
        · rw [if_pos hp, if_pos (show d ∈ {d | SeesSky Q node sp.geom.p d} from ⟨hit, hi, hp⟩), ← (hh d hit hi hp).2]
          rfl
        · rw [if_neg hp, if_neg]
          rintro ⟨h', e, e2⟩
          rw [hi] at e; cases e
          exact hp e2
    rw [this]
    refine Measurable.ite hs ?_ measurable_const
    unfold front
    exact ((measurable_chan i).comp (Measurable.ite (measurableSet_le (measurable_dot3 measurable_neg3 hN) measurable_const) measurable_const measurable_const)).ennreal_ofReal
  | map sgn junk tex ws w h d2 rot c r m hd hsk =>
    have : Transport.seenOn Q i node (env sgn junk tex d2 rot c r) sp = fun d => if d ∈ {d | SeesSky Q node sp.geom.p d} then ENNReal.ofReal (chan i (tex (envCoords rot d).1 (envCoords rot d).2)) else 0 :=
      funext fun d => by rw [seenOn_map _ _ _ _ _ _ _ _ _ _ _ hsk]; rfl
    rw [this]
    exact Measurable.ite hs ((measurable_chan i).comp (m.texture.comp (measurable_envCoords rot))).ennreal_ofReal measurable_const

/-- The reported density is a measurable function of the direction. -/
theorem LightAt.pdf {Q : Query} {node : Int} {M : Aff ℝ} {sp : SI} {L : Light} (h : LightAt Q node M sp L) :
    ∃ p : V3 ℝ → ℝ, Measurable p ∧ ∀ d hit, V3.dot d d = 1 → Q.isect sp.geom.p d = some hit → hit.primitive = node → L.pdfDirect sp.geom hit.geom M (-d) true = some (p d) := by
  cases h with
  | sky sgn junk Le c r hr hLe h =>
    refine ⟨fun d => convertSAtoProjSA pdfSphere sp.geom d, measurable_convert pdfSphere sp.geom, fun d hit _ hi hp => ?_⟩
    simp only [envconst, h.faces d hit hi hp, neg_neg]
  | area sgn junk Ke ts hA hM hS hKe h hm =>
    obtain ⟨P, N, hP, hN, hh⟩ := hm.hit
    obtain ⟨pA, hp, hpp, _⟩ := transformedInvA_pos ts M hA hM
    refine ⟨fun d => atPoint pA sp.geom (P d, N d), (measurable_atPoint pA sp.geom).comp (hP.prodMk hN), fun d hit hd hi hpr => ?_⟩
    obtain ⟨hf', hd', s, hs, es⟩ := h.ahead d hit hd hi hpr
    have hdir : dirOf (hit.geom.p - sp.geom.p) = d := by
      rw [es, add_sub_cancel_left]
      unfold dirOf
      have : V3.dot (s • d) (s • d) = s * s * V3.dot d d := by simp [V3.dot]; ring
      rw [this, hd, mul_one, Real.sqrt_mul_self hs.le, smul_smul, one_div, inv_mul_cancel₀ hs.ne', one_smul]
    show areaPdfDirect ts sp.geom hit.geom M (-d) = _
    rw [areaPdf_congr ts sp.geom hit.geom M (-d) junk false h.finite hf' hd']
    have := atPoint_eq hp h.finite junk false (hit.geom.p, hit.geom.n)
    rw [hdir, (hh d hit hi hpr).1, (hh d hit hi hpr).2] at this
    rw [(hh d hit hi hpr).1, (hh d hit hi hpr).2]
    exact this
  | map sgn junk tex ws w h d2 rot c r m hd hs =>
    refine ⟨fun d => (dens (envPdfDirect d2 rot sp.geom (makeInfinite (-d) junk junk))).toReal, (measurable_envPdf d2 rot sp.geom junk).ennreal_toReal, fun d hit _ hi hp => ?_⟩
    show envPdfDirect d2 rot sp.geom hit.geom = _
    have e : envPdfDirect d2 rot sp.geom hit.geom = envPdfDirect d2 rot sp.geom (makeInfinite (-d) junk junk) := by
      unfold envPdfDirect
      rw [hs.faces d hit hi hp]
      rfl
    obtain ⟨P, hP, h0⟩ := envPdf_some m hd rot sp.geom (makeInfinite (-d) junk junk)
    beta_reduce
    rw [e, hP]
    exact congrArg some (ENNReal.toReal_ofReal h0).symm

open Classical in
/-- The lights of a scene with area lights, constant environments and environment maps meet the requirements. -/
theorem lit_of {W : World} {Q : Query} {node M Lt} (hT : LightTable W node M Lt) (sp : SI) (hl : ∀ j < W.st.lights.length, LightAt Q (node j) (M j) sp (Lt j))
    (hall : ∀ d h, Q.isect sp.geom.p d = some h → (W.lightAt h.primitive).isSome → ∃ j < W.st.lights.length, h.primitive = node j) (i : Fin 3) : Lit W Q i node M Lt sp := by
  refine ⟨fun j hj => (hl j hj).ok i, hall, ?_, fun j hj => (hl j hj).seenOn i⟩
  choose! p hpm hp using fun j hj => (hl j hj).pdf
  have hinj : ∀ j k, j < W.st.lights.length → k < W.st.lights.length → node j = node k → j = k := fun j k hj hk e => by
    have h1 := hT.index j hj
    have h2 := hT.index k hk
    rw [e, h2] at h1
    simpa using h1.symm
  have e : lightPdf W Q sp = fun d => ∑ j ∈ Finset.range W.st.lights.length, if d ∈ {d | SeesSky Q (node j) sp.geom.p d} ∩ {d | V3.dot d d = 1} then 1 / (W.st.lights.length : ℝ) * p j d else 0 := by
    funext d
    unfold lightPdf
    cases hi : Q.isect sp.geom.p d with
    | none =>
      rw [Finset.sum_eq_zero]
      intro j _
      rw [if_neg]
      rintro ⟨⟨h', e, _⟩, _⟩
      rw [hi] at e; cases e
    | some hit =>
      dsimp only
      cases hL : W.lightAt hit.primitive with
      | none =>
        rw [Finset.sum_eq_zero]
        intro j hj
        rw [if_neg]
        rintro ⟨⟨h', e, e2⟩, _⟩
        rw [hi] at e; cases e
        rw [e2, hT.light j (Finset.mem_range.mp hj)] at hL; cases hL
      | some L =>
        dsimp only
        obtain ⟨j, hj, hn⟩ := hall d hit hi (by rw [hL]; rfl)
        rw [Finset.sum_eq_single j]
        · by_cases hd : V3.dot d d = 1
          · have hpd : pdfDirect W sp (asLight hit) (-d) true = some (1 / (W.st.lights.length : ℝ) * p j d) := by
              have e1 : asLight hit = ⟨.light, node j, hit.geom⟩ := by simp only [asLight, ← hn]
              rw [e1]
              exact hT.pdf sp hit.geom (-d) j hj _ (hp j hj d hit hd hi hn)
            rw [hpd, if_pos (show d ∈ {d | SeesSky Q (node j) sp.geom.p d} ∩ {d | V3.dot d d = 1} from ⟨⟨hit, hi, hn⟩, hd⟩)]
            simp [hd]
          · rw [if_neg (fun hm : d ∈ {d | SeesSky Q (node j) sp.geom.p d} ∩ {d | V3.dot d d = 1} => hd hm.2)]
            cases pdfDirect W sp (asLight hit) (-d) true <;> simp [hd]
        · intro k hk hne
          rw [if_neg]
          rintro ⟨⟨h', e, e2⟩, _⟩
          rw [hi] at e; cases e
          exact hne (hinj k j (Finset.mem_range.mp hk) hj (by rw [← e2, hn]))
        · intro hn; exact absurd (Finset.mem_range.mpr hj) hn
  rw [e]
  refine Finset.measurable_fun_sum _ fun j hj => ?_
  have hj := Finset.mem_range.mp hj
  exact Measurable.ite ((hl j hj).seen.inter (measurableSet_eq_fun measurable_dot measurable_const)) ((hpm j hj).const_mul _) measurable_const

/-- C82. What the path tracer computes in scenes with area lights, constant environments and environment maps. -/
theorem C82_lamps {W : World} {Q : Query} {n : Int} {cam : Camera} {comps} (hR : Regular W Q n cam comps) (hcam : W.st.camera = some n) {node M Lt} (hT : LightTable W node M Lt)
    (hl : ∀ sp wi, Vertex W Q n cam sp wi → ∀ j < W.st.lights.length, LightAt Q (node j) (M j) sp (Lt j))
    (hall : ∀ o d h, Q.isect o d = some h → (W.lightAt h.primitive).isSome → ∃ j < W.st.lights.length, h.primitive = node j)
    (i : Fin 3) (hmeas : ∀ k sp wi, Vertex W Q n cam sp wi → Measurable ((optics W Q i comps).incoming k sp)) (cfg : Cfg) (dir : ℝ × ℝ → V3 ℝ)
    (hdir : ∀ q, primaryRay cam q.1 q.2 = some (dir q)) (H : ℝ × ℝ → ℝ≥0∞) (hH : Measurable H) (u : RaySampleU) (uc : ℝ) (rs : ℕ → Rnd) :
    average (cfg.maxVerts - 1) 1 rs (fun rs' => measured i H (ptSample W Q cfg u uc rs')) = ∫⁻ q, H q * (optics W Q i comps).incoming (cfg.maxVerts - 1) (camVertex W n cam) (dir q) ∂uniform2 :=
  C82_scene hR hcam hT i (fun sp wi hv => lit_of hT sp (hl sp wi hv) (fun d h => hall _ d h) i) hmeas cfg dir hdir H hH u uc rs

end LM.Transport
