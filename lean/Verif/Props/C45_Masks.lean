import Verif.Props.C82_Skins
import Verif.Spec.Masks
/-
  C45: what the path tracer computes in scenes with materials of OBJ models whose masks have values between 0 and 1.
-/
namespace LM.Transport
open MeasureTheory LM LM.Surface LM.Material LM.Light LM.MathF LM.Path LM.Render LM.Solid Set
open scoped ENNReal

/-! ### The path tracer uses only a part of a material -/

/-- The materials agree in what the path tracer uses. -/
structure Alike (a b : Mat) : Prop where
  comp : a.sampleComponent = b.sampleComponent
  dir : a.sampleDirection = b.sampleDirection
  pdf : a.pdfDirection = b.pdfDirection
  kind : a.isSpecular = b.isSpecular
  eval : ∀ g wi wo c d, a.eval g wi wo c d true = b.eval g wi wo c d true

theorem leaky_alike (d gl : Mat) (alpha : Geom → ℝ) : Alike (leaky d gl alpha) (objMixture d gl alpha) := by
  refine ⟨rfl, rfl, rfl, rfl, fun g wi wo c dir => ?_⟩
  simp only [leaky, objMixture]
  split
  · rename_i h; rw [h]
  · rename_i h; simp [objEval, h]

theorem shown_alike (s : Skin) : Alike s.shown s.mat := by
  cases s with
  | obj Kd Ks ax ay alpha => exact leaky_alike _ _ _
  | _ => exact ⟨rfl, rfl, rfl, rfl, fun _ _ _ _ _ => rfl⟩

section Repaint
variable {W : World} {m : ℕ → Mat}

theorem repaint_mat (h : ∀ k, Alike (m k) (W.material k)) {β : Type} (f : Mat → β) (hf : ∀ a b, Alike a b → f a = f b) (j : Int) : ((repaint W m).materialAt j).map f = (W.materialAt j).map f := by
  show (((W.prim j).bind fun p => p.material.map m).map f) = (((W.prim j).bind fun p => p.material.map W.material).map f)
  cases W.prim j with
  | none => rfl
  | some p =>
    cases hk : p.material with
    | none => simp [hk]
    | some k => simp [hk, hf _ _ (h k)]

theorem repaint_bind (h : ∀ k, Alike (m k) (W.material k)) {β : Type} (f : Mat → Option β) (hf : ∀ a b, Alike a b → f a = f b) (j : Int) : ((repaint W m).materialAt j).bind f = (W.materialAt j).bind f := by
  have := congrArg Option.join (repaint_mat h f hf j)
  simpa [Option.join, Option.bind_map] using this

theorem repaint_component (h : ∀ k, Alike (m k) (W.material k)) : sampleComponent (repaint W m) = sampleComponent W := by
  funext u sp wi
  unfold sampleComponent
  rw [repaint_bind h _ fun a b hab => by rw [hab.comp]]

theorem repaint_specular (h : ∀ k, Alike (m k) (W.material k)) : isSpecularComponent (repaint W m) = isSpecularComponent W := by
  funext sp c
  unfold isSpecularComponent
  rw [repaint_bind h _ fun a b hab => by rw [hab.kind]]
  rfl

theorem repaint_pdf (h : ∀ k, Alike (m k) (W.material k)) : pdfDirection (repaint W m) = pdfDirection W := by
  funext sp wi wo c e
  unfold pdfDirection
  rw [repaint_bind h _ fun a b hab => by rw [hab.pdf]]
  rfl

theorem repaint_eval (h : ∀ k, Alike (m k) (W.material k)) (sp : SI) (wi wo : V3 ℝ) (c : ℕ) (d : TransDir) : evalContrbDirection (repaint W m) sp wi wo c d true = evalContrbDirection W sp wi wo c d true := by
  unfold evalContrbDirection
  rw [repaint_bind h _ fun a b hab => by rw [hab.eval]]
  rfl

theorem repaint_direction (h : ∀ k, Alike (m k) (W.material k)) : sampleDirection (repaint W m) = sampleDirection W := by
  funext u sp wi c d
  have := repaint_mat h (fun m => match m.sampleDirection u sp.geom wi c d with
      | .ok wo C => DirRes.ok wo (shadingNormalCorrection sp.geom wi wo d • C)
      | r => r) (fun a b hab => by rw [hab.dir]) sp.primitive
  unfold sampleDirection
  cases sp.kind with
  | surface =>
    dsimp only
    cases h1 : (repaint W m).materialAt sp.primitive <;> cases h2 : W.materialAt sp.primitive <;> rw [h1, h2] at this <;> first | rfl | exact Option.some.inj this | simp at this
  | _ => rfl

/-- The path tracer computes the same with materials that agree in what it uses. -/
theorem repaint_sample (h : ∀ k, Alike (m k) (W.material k)) (Q : Query) (c : Cfg) (u : RaySampleU) (uc : ℝ) (rs : ℕ → Rnd) : ptSample (repaint W m) Q c u uc rs = ptSample W Q c u uc rs := by
  have hby : byNee (repaint W m) = byNee W := by
    funext c nv st; unfold byNee; rw [repaint_specular h]
  have hnw : neeWeight (repaint W m) = neeWeight W := by
    funext c st spL woL; unfold neeWeight; rw [repaint_specular h, repaint_pdf h]; rfl
  have hns : neeSplat (repaint W m) = neeSplat W := by
    funext Q c nv st spL woL wL; unfold neeSplat; rw [repaint_eval h, hnw]; rfl
  have hn : ptNee (repaint W m) = ptNee W := by
    funext Q c nv st r; unfold ptNee; rw [hby, hns]; rfl
  have hhw : hitWeight (repaint W m) = hitWeight W := by
    funext c b st wo spL; unfold hitWeight; rw [repaint_pdf h]; rfl
  have hhs : hitSplat (repaint W m) = hitSplat W := by
    funext c nv st wo thr rp hit; unfold hitSplat; rw [hby, hhw, repaint_eval h]; rfl
  have hb : ptBody (repaint W m) = ptBody W := by
    funext Q c nv st r; unfold ptBody; rw [hn, repaint_direction h, hhs]; rfl
  have hadv : advance (repaint W m) = advance W := by
    funext rr nv hp r; unfold advance; rw [repaint_component h]
  have hw : ∀ rr body k nv st, Render.walk (repaint W m) rr body rs k nv st = Render.walk W rr body rs k nv st := by
    intro rr body k
    induction k with
    | zero => intros; rfl
    | succ k ih => intro nv st; unfold Render.walk; rw [hadv]; simp only [ih]
  have hst : ptStart (repaint W m) = ptStart W := by
    funext uc u; unfold ptStart; rw [repaint_component h]; rfl
  unfold ptSample
  rw [hst, hb]
  simp only [hw]

end Repaint

/-! ### What materials with masks look like -/

theorem leaky_smooth (Kd : Geom → V3 ℝ) (Ks : V3 ℝ) (ax ay : ℝ) (hax : 0 < ax) (hay : 0 < ay) (alpha : Geom → ℝ) (g : Geom) (wi : V3 ℝ) (h : OnSurface g) (hi : V3.dot wi wi = 1) (hw : V3.dot wi g.n ≠ 0)
    (hKd : NonNeg (Kd g)) (hK : NonNeg Ks) (hK1 : NonNeg (V3.all 1 - Ks)) (ha : 0 ≤ alpha g) : Smooth (leaky (diffuse Kd) (glossy Ks ax ay) alpha) 0 g wi := by
  have hmax : ∀ v : V3 ℝ, NonNeg v → 0 ≤ compMax v := fun v hv => le_trans hv.2.2 (le_max_right _ _)
  have hd := diffuse_smooth Kd 0 g wi h hw hKd
  have hg := glossy_smooth Ks ax ay hax hay 0 g wi h hi hw hK hK1
  obtain ⟨w, hw1, hw0, hwl⟩ := diffuseProb_spec (diffuse Kd) (glossy Ks ax ay) g (hmax _ hKd) (hmax _ hK)
  obtain ⟨Fd, mFd, hFd⟩ := hd.eval
  obtain ⟨Fg, mFg, hFg⟩ := hg.eval
  obtain ⟨Pd, mPd, hPd⟩ := hd.pdf
  obtain ⟨Pg, mPg, hPg⟩ := hg.pdf
  have hu := C81_obj_mixture Kd Ks ax ay hax hay alpha g wi h hi hw (hmax _ hKd) (hmax _ hK)
  have he := (C45_obj_mixture_partial Kd Ks ax ay hax hay alpha g wi h hi hw (hmax _ hKd) (hmax _ hK)).1
  have heval : ∀ d, V3.dot d d = 1 → ∀ dir e, (leaky (diffuse Kd) (glossy Ks ax ay) alpha).eval g wi d 0 dir e = some (alpha g • (Fd d + Fg d)) := fun d hd dir e => by
    have e1 : (diffuse Kd).eval g wi d 0 dir e = some (Fd d) := (hFd d hd).2 e
    have e2 : (glossy Ks ax ay).eval g wi d 0 dir e = some (Fg d) := (hFg d hd).2 e
    simp [leaky, objEval, e1, e2]
  have hpdf : ∀ d, V3.dot d d = 1 → ∀ e, (leaky (diffuse Kd) (glossy Ks ax ay) alpha).pdfDirection g wi d 0 e = some (w * Pd d + (1 - w) * Pg d) := fun d hd e => by
    simp [leaky, objMixture, objPdf, hPd d hd e, hPg d hd e, hw1]
  refine ⟨rfl, hu, he, fun dir wo ho => ?_, ⟨fun d => alpha g • (Fd d + Fg d), measurable_smul3 measurable_const (measurable_add3 mFd mFg), fun d hd => ⟨nonneg_smul ha ?_, heval d hd .EL⟩⟩,
    ⟨fun d => w * Pd d + (1 - w) * Pg d, (mPd.const_mul _).add (mPg.const_mul _), hpdf⟩⟩
  · obtain ⟨P1, F1, a1, b1, c1, d1⟩ := hd.covers dir wo ho
    obtain ⟨P2, F2, a2, b2, c2, d2⟩ := hg.covers dir wo ho
    rw [hPd wo ho false] at a1; rw [hPg wo ho false] at a2
    cases a1; cases a2
    refine ⟨_, _, hpdf wo ho false, heval wo ho dir false, by nlinarith [mul_nonneg hw0 c1, mul_nonneg (sub_nonneg.mpr hwl) c2], fun h0 => ?_⟩
    by_cases ho' : opposite g wi wo = true
    · have e1 := (hFd wo ho).2 false
      have e2 := (hFg wo ho).2 false
      simp only [diffuse, ho', if_true, Option.some.injEq] at e1
      simp only [glossy, glossyEval, ho', if_true, Option.some.injEq] at e2
      rw [← e1, ← e2, add_zero, smul_zero]
    · exfalso
      rw [Bool.not_eq_true] at ho'
      have e1 := hPd wo ho false
      simp only [diffuse, ho', Bool.false_eq_true, if_false, Option.some.injEq] at e1
      obtain ⟨⟨q, hq, hq0⟩, _⟩ := glossy_defined Ks ax ay hax hay g wi wo h hi ho ((opposite_iff _ _ _).mp ho')
      have e2 := hPg wo ho false
      simp only [glossy, hq, Option.some.injEq] at e2
      have hpi : 0 < 1 / Real.pi := by positivity
      rw [← e1, ← e2] at h0
      rcases hw0.lt_or_eq with hlt | heq
      · nlinarith [mul_pos hlt hpi, mul_nonneg (sub_nonneg.mpr hwl) hq0.le]
      · rw [← heq] at h0; linarith
  · obtain ⟨a1, a2, a3⟩ := (hFd d hd).1
    obtain ⟨b1, b2, b3⟩ := (hFg d hd).1
    exact ⟨add_nonneg a1 b1, add_nonneg a2 b2, add_nonneg a3 b3⟩

theorem Skin.shown_ok {s : Skin} {vertex : V3 ℝ → SI} (hs : s.Masked vertex) (p wi : V3 ℝ) (hon : OnSurface (vertex p).geom) (hi : V3.dot wi wi = 1) (hw : V3.dot wi (vertex p).geom.n ≠ 0) : MatOk s.shown (vertex p).geom wi (s.parts (vertex p).geom wi) := by
  cases s with
  | obj Kd Ks ax ay alpha =>
    obtain ⟨⟨h1, hax, hay, hK, hK1⟩, ha, _⟩ := hs
    obtain ⟨h0, hle⟩ := ha p
    refine ⟨fun u hu0 hu1 => ?_, fun F => ?_, fun c hc => ?_⟩
    · simp only [Skin.shown, leaky, objMixture, Skin.parts]
      by_cases h : u < alpha (vertex p).geom
      · have hne : alpha (vertex p).geom ≠ 0 := by linarith
        exact ⟨0, 1 / alpha (vertex p).geom, by simp [h, divF, hne], by simp [hne], by positivity⟩
      · have hne : 1 - alpha (vertex p).geom ≠ 0 := by linarith
        exact ⟨1, 1 / (1 - alpha (vertex p).geom), by simp [h, divF, hne], by simp [hne], div_nonneg zero_le_one (by linarith)⟩
    · obtain ⟨q, hq, _, _, hF⟩ := C81_select_obj (diffuse Kd) (glossy Ks ax ay) alpha (vertex p).geom wi h0 hle
      refine (hF F).trans (Finset.sum_congr (Finset.filter_congr fun c hc => ?_) fun _ _ => rfl)
      rw [← Option.some.inj (hq c (Finset.mem_range.mp hc))]
    · by_cases hc0 : c = 0
      · subst hc0
        exact .inl (leaky_smooth Kd Ks ax ay hax hay alpha _ wi hon hi hw (h1.1 p) hK hK1 h0)
      · refine .inr ⟨by simp [Skin.shown, leaky, objMixture, hc0], -wi, V3.all 1, by simpa [V3.dot] using hi, ⟨by simp [V3.all], by simp [V3.all], by simp [V3.all]⟩, fun us => ?_, ?_⟩
        · simp [Skin.shown, leaky, objMixture, hc0]
        · simp [Skin.shown, leaky, hc0]
  | plain l => exact Skin.ok (s := .plain l) hs p wi hon hi hw
  | mix ls => exact Skin.ok (s := .mix ls) hs p wi hon hi hw
  | marg ls => exact Skin.ok (s := .marg ls) hs p wi hon hi hw
  | glass Ni => exact Skin.ok (s := .glass Ni) hs p wi hon hi hw

variable {ps : List Part} {sgn : V3 ℝ → Bool} {junk : V3 ℝ} {W : World} {Q : Query} {n : Int} {cam : Camera}

theorem Skin.shown_gathers (h : Room W Q n cam ps sgn junk) {j : Int} {s : Skin} (hs : s.Masked (vertexAt ps sgn junk j)) : Gathers (vertexAt ps sgn junk j) s.shown fun g wi => s.parts g wi := by
  cases s with
  | obj Kd Ks ax ay alpha =>
    obtain ⟨⟨h1, h2⟩, _, ham⟩ := hs
    refine ⟨2, fun c hc => ?_, fun p wi => Finset.filter_subset _ _, fun c => ?_⟩
    · by_cases hc0 : c = 0
      · subst hc0
        refine .inl ⟨rfl, _, measurable_smul3 (ham.comp measurable_fst) (measurable_add3 (h.measurableCoat j h1).1 (h.measurableCoat j h2).1), fun p wi wo hi ho hw => ?_⟩
        have e1 := (Coat.values h1 0 p wi wo (h.on j p) hi ho hw).2.1 .EL false
        have e2 := (Coat.values h2 0 p wi wo (h.on j p) hi ho hw).2.1 .EL false
        simp only [Coat.mat] at e1 e2
        simp [Skin.shown, leaky, objEval, e1, e2]
      · refine .inr ⟨by simp [Skin.shown, leaky, objMixture, hc0], _, fun q => V3.all 1, measurable_neg3.comp measurable_snd, measurable_const, fun p wi _ _ => ⟨⟨V3.all 1, ?_⟩, ?_⟩⟩
        · simp only [Skin.shown, leaky, objMixture, if_neg hc0]; rfl
        · simp [Skin.shown, leaky, hc0]
    · have e : {q : V3 ℝ × V3 ℝ | c ∈ (Skin.obj Kd Ks ax ay alpha).parts (vertexAt ps sgn junk j q.1).geom q.2} =
          {_q | c < 2} ∩ {q | (if c = 0 then alpha (vertexAt ps sgn junk j q.1).geom else 1 - alpha (vertexAt ps sgn junk j q.1).geom) = 0}ᶜ := by
        ext q
        simp only [Skin.parts, mem_ofPred_eq, Finset.mem_filter, Finset.mem_range, mem_inter_iff, mem_compl_iff, ne_eq]
      rw [e]
      refine (MeasurableSet.const _).inter (measurableSet_eq_fun ?_ measurable_const).compl
      split_ifs
      · exact ham.comp measurable_fst
      · exact measurable_const.sub (ham.comp measurable_fst)
  | plain l => exact Skin.gathers (s := .plain l) h hs
  | mix ls => exact Skin.gathers (s := .mix ls) h hs
  | marg ls => exact Skin.gathers (s := .marg ls) h hs
  | glass Ni => exact Skin.gathers (s := .glass Ni) h hs

variable {node : ℕ → Int} {M : ℕ → Aff ℝ} {lsgn : V3 ℝ → Bool} {ljunk : V3 ℝ} {Ke : ℕ → V3 ℝ} {ts : ℕ → List Tri}

/-- C45. What masks do to images. The path tracer, in every scene of separate triangles with area lights, in every sampling mode, where the masks of materials of OBJ models have any values from 0 to 1: its expected value on the film is the integral, over the film, of the radiance
    that arrives along the primary rays by light paths with the given number of vertices in the scene where these surfaces transmit all light, except where the mask is 1.
    Missing: the surface should transmit 1 - alpha of the light; the sampled weight of the transparent component is 1 instead (`C45_negation_obj_mask`). -/
theorem C45_masked_images_partial (h : Room W Q n cam ps sgn junk) {skin : Int → Skin} {m : ℕ → Mat} (hp : Masked W m ps sgn junk skin) (hl : Lighting W ps node M lsgn ljunk Ke ts) (i : Fin 3)
    (cfg : Cfg) (dir : ℝ × ℝ → V3 ℝ) (hdir : ∀ q, primaryRay cam q.1 q.2 = some (dir q)) (H : ℝ × ℝ → ℝ≥0∞) (hH : Measurable H) (u : RaySampleU) (uc : ℝ) (rs : ℕ → Rnd) :
    average (cfg.maxVerts - 1) 1 rs (fun rs' => measured i H (ptSample W Q cfg u uc rs')) = ∫⁻ q, H q * (optics (repaint W m) Q i (partsOf skin)).incoming (cfg.maxVerts - 1) (camVertex W n cam) (dir q) ∂uniform2 := by
  have hal : ∀ k, Alike (m k) (W.material k) := fun k => by
    rcases hp.only k with e | ⟨s, e1, e2⟩
    · rw [e]; exact ⟨rfl, rfl, rfl, rfl, fun _ _ _ _ _ => rfl⟩
    · rw [e1, e2]; exact shown_alike s
  have h' : Room (repaint W m) Q n cam ps sgn junk := { h with camera := h.camera, cameraAt := h.cameraAt }
  have hl' : Lighting (repaint W m) ps node M lsgn ljunk Ke ts := ⟨⟨hl.table.1, hl.table.2, hl.table.3, hl.table.4⟩, hl.size, hl.nonneg, hl.only, hl.parts⟩
  have hlamp : Lamps (repaint W m) (faces ps) (vertexAt ps sgn junk) node M lsgn ljunk Ke ts := hl'.lamps h'.separate
  have hE := hlamp.measurableOf h'.faceted h'.normals i
  have hreg : Regular (repaint W m) Q n cam (partsOf skin) := by
    refine ⟨h'.cameraAt, h'.proper, rfl, fun o d hit hd hi _ => ?_, fun o d hit hd hi hf => ?_⟩
    · obtain ⟨⟨a, ha, hja⟩, hgr⟩ := h'.face hi
      have hs := h'.faceted.same o d hit hd hi
      have hdn : V3.dot (-d) (-d) = 1 := by simpa [V3.dot] using hd
      have hgn : V3.dot (-d) (vertexAt ps sgn junk hit.primitive hit.geom.p).geom.n ≠ 0 := by
        rw [← hs, V3.dot_comm, V3.dot_neg_right, V3.dot_comm]; exact neg_ne_zero.mpr hgr
      have hk := Skin.shown_ok (hp.sound hit.primitive) hit.geom.p (-d) (h'.on _ _) hdn hgn
      have hon := h'.on hit.primitive hit.geom.p
      have hcomp : partsOf skin hit (-d) = (skin hit.primitive).parts hit.geom (-d) := by
        have hkind : hit.kind = .surface := by rw [hs]; rfl
        simp only [partsOf, hkind]
      rw [← hs] at hk hon
      refine ⟨by rw [hs]; rfl, by rw [hs]; rfl, hon, hgr, (skin hit.primitive).shown, by rw [hja]; exact hp.shown a ha, ?_⟩
      rw [hcomp]; exact hk
    · rw [h'.faceted.same o d hit hd hi] at hf
      cases hf
  have hinc := h'.incoming (comps := partsOf skin) (m := fun j => (skin j).shown) (C := fun j g wi => (skin j).parts g wi) hp.shown (fun _ _ _ => rfl) (fun j => Skin.shown_gathers h' (hp.sound j)) i hE
  simp only [← repaint_sample hal]
  refine C82_lamps hreg h'.camera hlamp.table (fun sp wi hv => hlamp.lightAtOf h'.faceted h'.normals h'.unitOnly hv.finite fun l hll g hg t ht hin hd => h'.lightVisible hl' sp hv.finite l hll g hg t ht hin hd) (fun o d hit hi hL => ?_) i
    (fun k sp _ _ => ?_) cfg dir hdir H hH u uc rs
  · obtain ⟨L, hL⟩ := Option.isSome_iff_exists.1 hL
    obtain ⟨⟨a, ha, hja⟩, _⟩ := h'.face hi
    rw [hja] at hL ⊢
    exact hl'.only a ha L hL
  · obtain ⟨I, hI, hIe⟩ := hinc k
    refine (congrArg Measurable (funext fun d => (hIe sp d).symm)).mp ?_
    exact hI.comp (measurable_const.prodMk measurable_id)

/-! ### How much light is transmitted -/

theorem through {W : World} {j : Int} {m : Mat} (hm : W.materialAt j = some m) (p wi : V3 ℝ) (hw : V3.dot wi (vertexAt ps sgn junk j p).geom.n ≠ 0) (i : Fin 3) {C : V3 ℝ} {x : ℝ} (hk : m.isSpecular 1 = some true)
    (hd : m.sampleDirection ⟨0, 0, 0⟩ (vertexAt ps sgn junk j p).geom wi 1 .EL = .ok (-wi) C) (he : m.eval (vertexAt ps sgn junk j p).geom wi (-wi) 1 .EL false = some (V3.all x)) :
    Transport.scattered W i (vertexAt ps sgn junk j p) wi 1 = ENNReal.ofReal x • Measure.dirac (-wi) := by
  have hsnc : shadingNormalCorrection (vertexAt ps sgn junk j p).geom wi (-wi) .EL = 1 := by
    have hpos : 0 < V3.dot wi (vertexAt ps sgn junk j p).geom.n * V3.dot wi (vertexAt ps sgn junk j p).geom.n := mul_self_pos.mpr hw
    have hneg : V3.dot (-wi) (vertexAt ps sgn junk j p).geom.n = -V3.dot wi (vertexAt ps sgn junk j p).geom.n := by rw [V3.dot_comm, V3.dot_neg_right, V3.dot_comm]
    have hgn : (vertexAt ps sgn junk j p).geom.gn = (vertexAt ps sgn junk j p).geom.n := rfl
    simp only [shadingNormalCorrection, localCos, toLocal, V3.dot_comm (vertexAt ps sgn junk j p).geom.n, hgn, hneg]
    rw [if_neg, if_neg (by simp)]
    rintro (h | h) <;> nlinarith
  have hspec : isSpecularComponent W (vertexAt ps sgn junk j p) 1 = some true := by
    show (W.materialAt j).bind (fun m => m.isSpecular 1) = _
    rw [hm]; exact hk
  obtain ⟨C', hsam⟩ : ∃ C', Path.sampleDirection W ⟨0, 0, 0⟩ (vertexAt ps sgn junk j p) wi 1 .EL = .ok (-wi) C' := ⟨_, by
    rw [sample_surface rfl (show W.materialAt (vertexAt ps sgn junk j p).primitive = some m from hm), hd]⟩
  have e : evalContrbDirection W (vertexAt ps sgn junk j p) wi (-wi) 1 .EL false = some (V3.all x) := by
    show (W.materialAt j).bind _ = _
    rw [hm, Option.bind_some, he, Option.map_some]
    have : shadingNormalCorrection (vertexAt ps sgn junk j p).geom wi (-wi) .EL • V3.all x = V3.all x := by rw [hsnc, one_smul]
    exact congrArg some this
  unfold Transport.scattered
  rw [hspec]
  dsimp only
  rw [hsam]
  dsimp only
  rw [e]
  congr 1
  fin_cases i <;> rfl

/-- C45, violated by masks. Their effect on images: at a point where the mask of an OBJ material is alpha, the transparent component of the material transmits the part 1 - alpha of the light, straight on, but that of the material for which the path tracer computes the image (`C45_masked_images_partial`)
    transmits all of it; unless alpha is 0, this is a different image. -/
theorem C45_negation_mask_light {W : World} {m : ℕ → Mat} {skin : Int → Skin} (hp : Masked W m ps sgn junk skin) {a : Part} (ha : a ∈ ps) {Kd : Geom → V3 ℝ} {Ks : V3 ℝ} {ax ay : ℝ} {alpha : Geom → ℝ} (hs : skin a.prim = .obj Kd Ks ax ay alpha)
    (p wi : V3 ℝ) (hw : V3.dot wi (vertexAt ps sgn junk a.prim p).geom.n ≠ 0) (i : Fin 3) :
    Transport.scattered W i (vertexAt ps sgn junk a.prim p) wi 1 = ENNReal.ofReal (1 - alpha (vertexAt ps sgn junk a.prim p).geom) • Measure.dirac (-wi) ∧
    Transport.scattered (repaint W m) i (vertexAt ps sgn junk a.prim p) wi 1 = Measure.dirac (-wi) ∧
    (alpha (vertexAt ps sgn junk a.prim p).geom ≠ 0 → Transport.scattered W i (vertexAt ps sgn junk a.prim p) wi 1 ≠ Transport.scattered (repaint W m) i (vertexAt ps sgn junk a.prim p) wi 1) := by
  have e1 := hp.material a ha
  have e2 := hp.shown a ha
  have hpos := hp.sound a.prim
  rw [hs] at e1 e2 hpos
  have h0 := (hpos.2.1 p).1
  have t1 := through (ps := ps) (sgn := sgn) (junk := junk) e1 p wi hw i (x := 1 - alpha (vertexAt ps sgn junk a.prim p).geom) (C := V3.all 1) (by simp [Skin.mat, objMixture]) (by simp [Skin.mat, objMixture]) (by simp [Skin.mat, objMixture, objEval])
  have t2 := through (ps := ps) (sgn := sgn) (junk := junk) e2 p wi hw i (x := 1) (C := V3.all 1) (by simp [Skin.shown, leaky, objMixture]) (by simp [Skin.shown, leaky, objMixture]) (by simp [Skin.shown, leaky])
  rw [ENNReal.ofReal_one, one_smul] at t2
  refine ⟨t1, t2, fun hne h => ?_⟩
  rw [t1, t2] at h
  have := congrArg (fun μ : Measure (V3 ℝ) => μ univ) h
  simp only [Measure.smul_apply, measure_univ, smul_eq_mul, mul_one] at this
  rw [ENNReal.ofReal_eq_one] at this
  exact hne (by linarith)

/-! ### A concrete scene: that of C82_Skins, with a veil that covers half of what is behind it -/

noncomputable def exVeil : Skin := .obj (fun _ => V3.all (1 / 2)) (V3.all (1 / 4)) (1 / 2) (1 / 2) fun _ => 1 / 2

noncomputable def exShown (k : ℕ) : Mat := if k = 0 then exVeil.shown else diffuse (fun _ => V3.all (1 / 2))

theorem exVeiled : Masked (exDressed exVeil) exShown exParts (fun _ => false) 0 (exSkin exVeil) where
  material a ha := by
    rcases (by simpa [exParts] using ha : a = ⟨1, 1, glowTri⟩ ∨ a = ⟨2, 1, lampTri⟩ ∨ a = ⟨2, 1, shadeTri⟩) with rfl | rfl | rfl <;> rfl
  shown a ha := by
    rcases (by simpa [exParts] using ha : a = ⟨1, 1, glowTri⟩ ∨ a = ⟨2, 1, lampTri⟩ ∨ a = ⟨2, 1, shadeTri⟩) with rfl | rfl | rfl <;> rfl
  only k := by
    by_cases hk : k = 0
    · subst hk; exact .inr ⟨exVeil, rfl, rfl⟩
    · left; simp [exShown, exDressed, hk]
  sound j := by
    unfold exSkin
    split
    · refine ⟨⟨⟨fun _ => half_nonneg, measurable_const⟩, by norm_num, by norm_num, ?_, ?_⟩, fun p => ⟨by norm_num, by norm_num⟩, measurable_const⟩
      · refine ⟨?_, ?_, ?_⟩ <;> simp [V3.all]
      · refine ⟨?_, ?_, ?_⟩ <;> simp [V3.all] <;> norm_num
    · exact ⟨fun _ => half_nonneg, measurable_const⟩

/-- All light passes the veil. -/
example (i : Fin 3) (mode : Mode) (px : Bool) (N : ℕ) (dir : ℝ × ℝ → V3 ℝ) (hdir : ∀ q, primaryRay exCam q.1 q.2 = some (dir q)) (H : ℝ × ℝ → ℝ≥0∞) (hH : Measurable H) (u : RaySampleU) (uc : ℝ) (rs : ℕ → Rnd) :
    average (N - 1) 1 rs (fun rs' => measured i H (ptSample (exDressed exVeil) exRoomQ ⟨mode, px, N⟩ u uc rs')) =
      ∫⁻ q, H q * (optics (repaint (exDressed exVeil) exShown) exRoomQ i (partsOf (exSkin exVeil))).incoming (N - 1) (camVertex (exDressed exVeil) 3 exCam) (dir q) ∂uniform2 :=
  C45_masked_images_partial (exDressedRoom exVeil) exVeiled (exDressedLighting exVeil) i ⟨mode, px, N⟩ dir hdir H hH u uc rs

/-- The veil, seen from the front: half of the light should pass. -/
example (i : Fin 3) (p wi : V3 ℝ) (hw : V3.dot wi (vertexAt exParts (fun _ => false) 0 2 p).geom.n ≠ 0) :
    Transport.scattered (exDressed exVeil) i (vertexAt exParts (fun _ => false) 0 2 p) wi 1 ≠ Transport.scattered (repaint (exDressed exVeil) exShown) i (vertexAt exParts (fun _ => false) 0 2 p) wi 1 :=
  (C45_negation_mask_light exVeiled (a := ⟨2, 1, lampTri⟩) (by simp [exParts]) rfl p wi hw i).2.2 (by norm_num)

end LM.Transport
