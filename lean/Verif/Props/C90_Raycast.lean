import Verif.Model.Raycast
import Verif.Props.C69_Normalise
import Verif.Props.C82_Example
/-
  C90: the image of the ray casting renderer.
-/
namespace LM.Raycast
open LM LM.Film LM.Scheduler LM.Surface LM.Material LM.Light LM.Path LM.Render LM.Accel LM.RenderFilm

/-! ### Specification -/

/-- The camera of the scene. -/
def Sees (W : World) (cam : Camera) : Prop := ∃ n, W.st.camera = some n ∧ W.cameraAt n = some cam

/-- The colour that belongs to a ray of unit direction d whose nearest intersection is `seen`: the background colour if there is none, the emission of the environment light at infinity, and
    on surfaces the given colour or the reflectance of the material; except in the constant mode it is darkened to between 1/5 (grazing) and 1 (facing) of that. In the normal mode surfaces show the
    absolute values of the coordinates of the shading normal, and there is no colour for points at infinity. -/
inductive Colour (W : World) (c : Cfg) (d : V3 ℝ) : Option SI → V3 ℝ → Prop
  | background : Colour W c d none c.bg
  | normal (sp : SI) (hn : c.normals = true) (hf : sp.geom.infinite = false) : Colour W c d (some sp) ⟨|sp.geom.n.x|, |sp.geom.n.y|, |sp.geom.n.z|⟩
  | sky (sp : SI) (L : Light) (hn : c.normals = false) (hi : sp.geom.infinite = true) (hL : W.lightAt sp.primitive = some L) : Colour W c d (some sp) (L.eval sp.geom sp.geom.wo false)
  | surface (sp : SI) (R : V3 ℝ) (s : ℝ) (hn : c.normals = false) (hf : sp.geom.infinite = false)
      (hR : c.color = some R ∨ (c.color = none ∧ sp.kind = .surface ∧ ∃ m, W.materialAt sp.primitive = some m ∧ R = m.reflectance sp.geom))
      (hs : (c.constant = true ∧ s = 1) ∨ (c.constant = false ∧ s = 1 / 5 + 4 / 5 * |V3.dot sp.geom.n d|)) : Colour W c d (some sp) (s • R)

/-- v is the colour of the ray through the centre of pixel (x, y) of a w × h image. -/
def Shows (W : World) (Q : Query) (c : Cfg) (w h x y : ℕ) (v : V3 ℝ) : Prop :=
  ∃ cam d, Sees W cam ∧ V3.dot d d = 1 ∧ cam.Towards d (((x : ℝ) + 1 / 2) / w) (((y : ℝ) + 1 / 2) / h) ∧ Colour W c d (Q.isect cam.position d) v

/-- The scene is one a ray casting renderer can show: more than the root node, an acceleration structure and a camera. -/
def Ready (W : World) (accel : Bool) : Prop := 1 < W.st.nodes.length ∧ accel = true ∧ ∃ cam, Sees W cam ∧ cam.Proper

/-! ### Lemmas -/

theorem shade_iff (W : World) (c : Cfg) (d : V3 ℝ) (o : Option SI) (v : V3 ℝ) : shade W c d o = .ret v ↔ Colour W c d o v := by
  cases o with
  | none =>
    constructor
    · intro h
      cases h
      exact .background
    · intro h
      cases h
      rfl
  | some sp =>
    have hdot : ∀ n : V3 ℝ, |V3.dot n (-d)| = |V3.dot n d| := by
      intro n
      rw [← abs_neg, V3.dot, V3.dot]
      simp only [V3.neg_x, V3.neg_y, V3.neg_z]
      congr 1
      ring
    constructor
    · intro h
      unfold shade at h
      cases hn : c.normals with
      | true =>
        cases hf : sp.geom.infinite with
        | true => simp [hn, hf] at h
        | false =>
          simp only [hn, hf, if_true, Bool.false_eq_true, if_false, Out.ret.injEq] at h
          subst h
          exact .normal sp hn hf
      | false =>
        simp only [hn, Bool.false_eq_true, if_false] at h
        cases hf : sp.geom.infinite with
        | true =>
          simp only [hf, if_true] at h
          cases hL : W.lightAt sp.primitive with
          | none => simp [hL] at h
          | some L =>
            simp only [hL, Out.ret.injEq] at h
            subst h
            exact .sky sp L hn hf hL
        | false =>
          simp only [hf, Bool.false_eq_true, if_false] at h
          obtain ⟨R, hR, hv⟩ : ∃ R, (c.color = some R ∨ (c.color = none ∧ sp.kind = .surface ∧ ∃ m, W.materialAt sp.primitive = some m ∧ R = m.reflectance sp.geom)) ∧
              v = if c.constant then R else facing sp.geom.n d • R := by
            cases hc : c.color with
            | some R =>
              simp only [baseColor, hc, Out.ret.injEq] at h
              exact ⟨R, .inl rfl, h.symm⟩
            | none =>
              simp only [baseColor, hc, reflectance] at h
              cases hk : sp.kind <;> simp only [hk] at h
              · cases h
              · cases h
              · cases h
              cases hm : W.materialAt sp.primitive with
              | none => simp [hm] at h
              | some m =>
                simp only [hm, Out.ret.injEq] at h
                exact ⟨_, .inr ⟨rfl, rfl, m, rfl, rfl⟩, h.symm⟩
          rw [hv]
          cases hcc : c.constant with
          | true =>
            have := Colour.surface (W := W) (c := c) (d := d) sp R 1 hn hf hR (.inl ⟨hcc, rfl⟩)
            rw [one_smul] at this
            exact this
          | false =>
            have := Colour.surface (W := W) (c := c) (d := d) sp R (facing sp.geom.n d) hn hf hR (.inr ⟨hcc, by rw [facing, hdot]⟩)
            exact this
    · intro h
      cases h with
      | normal _ hn hf => simp [shade, hn, hf, absV]
      | sky _ L hn hi hL => simp [shade, hn, hi, hL]
      | surface _ R s hn hf hR hs =>
        have hr : baseColor W c sp = .ret R := by
          unfold baseColor
          rcases hR with hc | ⟨hc, hk, m, hm, rfl⟩
          · rw [hc]
          · rw [hc]
            simp only [reflectance, hk, hm]
        simp only [shade, hn, hf, Bool.false_eq_true, if_false, hr]
        rcases hs with ⟨hc, rfl⟩ | ⟨hc, rfl⟩
        · rw [hc, one_smul]; rfl
        · rw [hc, facing, hdot]; rfl

theorem towards_unique {cam : Camera} (h : cam.Proper) {d d' : V3 ℝ} {x y : ℝ} (h1 : V3.dot d d = 1) (h1' : V3.dot d' d' = 1) (ht : cam.Towards d x y) (ht' : cam.Towards d' x y) : d = d' := by
  obtain ⟨k, hk, e⟩ := ht
  obtain ⟨k', hk', e'⟩ := ht'
  have he : k • d = k' • d' := e.trans e'.symm
  have hd : V3.dot (k • d) (k • d) = V3.dot (k' • d') (k' • d') := by rw [he]
  have e1 : ∀ (a : ℝ) (v : V3 ℝ), V3.dot (a • v) (a • v) = a * a * V3.dot v v := by
    intro a v
    simp only [V3.dot, V3.smul_x, V3.smul_y, V3.smul_z]
    ring
  rw [e1, e1, h1, h1', mul_one, mul_one] at hd
  have hkk : k = k' := by nlinarith
  subst hkk
  have := congrArg (fun v => k⁻¹ • v) he
  simpa [smul_smul, inv_mul_cancel₀ hk.ne'] using this

theorem cast_iff (W : World) (Q : Query) (c : Cfg) (w h i : ℕ) (cam : Camera) (hs : Sees W cam) (hp : cam.Proper) (p : ℕ × ℕ) (v : V3 ℝ) :
    cast W Q c w h i = .ret (p, v) ↔ p = (i % w, i / w) ∧ Shows W Q c w h (i % w) (i / w) v := by
  obtain ⟨n, hn, hc⟩ := hs
  obtain ⟨d, hd, h1, ht⟩ := C47_primary cam hp ((((i % w : ℕ) : ℝ) + 1 / 2) / w) ((((i / w : ℕ) : ℝ) + 1 / 2) / h)
  simp only [cast, hn, hc, hd]
  constructor
  · intro hr
    cases hsh : shade W c d (Q.isect cam.position d) with
    | undef => simp [hsh] at hr
    | throw => simp [hsh] at hr
    | ret C =>
      simp only [hsh, Out.ret.injEq, Prod.mk.injEq] at hr
      obtain ⟨hr1, rfl⟩ := hr
      exact ⟨hr1.symm, cam, d, ⟨n, hn, hc⟩, h1, ht, (shade_iff W c d _ _).mp hsh⟩
  · rintro ⟨rfl, cam', d', ⟨n', hn', hc'⟩, h1', ht', hcol⟩
    rw [hn] at hn'
    obtain rfl := Option.some.inj hn'
    rw [hc] at hc'
    obtain rfl := Option.some.inj hc'
    obtain rfl := towards_unique hp h1' h1 ht' ht
    rw [(shade_iff W c d' _ _).mpr hcol]

theorem casts_spec (W : World) (Q : Query) (c : Cfg) (w h : ℕ) (hw : 0 < w) (cam : Camera) (hs : Sees W cam) (hp : cam.Proper) (g : ℕ → V3 ℝ)
    (hg : ∀ i, i < w * h → Shows W Q c w h (i % w) (i / w) (g i)) : ∀ (is : List ℕ) (b : Bitmap (V3 ℝ)), WF b → b.w = w → b.h = h → (∀ i ∈ is, i < w * h) →
      ∃ f, casts W Q c b is = .ret f ∧ WF f ∧ f.w = w ∧ f.h = h ∧ ∀ x y, x < w → y < h → pixel f x y = if y * w + x ∈ is then some (g (y * w + x)) else pixel b x y
  | [], b, hb, hbw, hbh, _ => ⟨b, rfl, hb, hbw, hbh, fun x y _ _ => by simp⟩
  | i :: is, b, hb, hbw, hbh, hi => by
    have hil := hi i (by simp)
    have hx : i % w < b.w := by rw [hbw]; exact Nat.mod_lt _ hw
    have hy : i / w < b.h := by rw [hbh]; exact Nat.div_lt_of_lt_mul hil
    obtain ⟨b', e, q1, q2, q3⟩ := (C25_write b hb (i % w) (i / w) hx hy (g i) id).1
    have hdim : b'.w = b.w ∧ b'.h = b.h := by
      unfold setPixel at e
      obtain ⟨dd, _, rfl⟩ := Option.map_eq_some_iff.mp e
      exact ⟨rfl, rfl⟩
    obtain ⟨f, f1, f0, f2, f3, f4⟩ := casts_spec W Q c w h hw cam hs hp g hg is b' q1 (hdim.1.trans hbw) (hdim.2.trans hbh) (fun j hj => hi j (by simp [hj]))
    refine ⟨f, ?_, f0, f2, f3, ?_⟩
    · have hc := (cast_iff W Q c w h i cam hs hp (i % w, i / w) (g i)).mpr ⟨rfl, hg i hil⟩
      simp only [casts, hbw, hbh, hc, e, f1]
    · intro x y hxw hyh
      rw [f4 x y hxw hyh]
      by_cases h1 : y * w + x ∈ is
      · simp [h1]
      · rw [if_neg h1]
        by_cases h2 : y * w + x = i
        · subst h2
          have ex : (y * w + x) % w = x := by rw [Nat.add_comm, Nat.add_mul_mod_self_right, Nat.mod_eq_of_lt hxw]
          have ey : (y * w + x) / w = y := by rw [Nat.add_comm, Nat.add_mul_div_right _ _ hw, Nat.div_eq_of_lt hxw, Nat.zero_add]
          rw [if_pos (by simp)]
          rw [ex, ey] at q2
          exact q2
        · rw [if_neg (by simp [h1, h2])]
          refine q3 x y (by rw [hbw]; exact hxw) ?_
          rintro e
          obtain ⟨rfl, rfl⟩ := Prod.mk.inj e
          exact h2 (by rw [Nat.mul_comm]; exact Nat.div_add_mod i w)

theorem casts_ret (W : World) (Q : Query) (c : Cfg) (w h : ℕ) (cam : Camera) (hs : Sees W cam) (hp : cam.Proper) : ∀ (is : List ℕ) (b f : Bitmap (V3 ℝ)), b.w = w → b.h = h →
    casts W Q c b is = .ret f → ∀ i ∈ is, ∃ v, Shows W Q c w h (i % w) (i / w) v
  | [], _, _, _, _, _ => by simp
  | j :: is, b, f, hbw, hbh, hr => by
    cases hc : cast W Q c b.w b.h j with
    | undef => simp [casts, hc] at hr
    | throw => simp [casts, hc] at hr
    | ret q =>
      obtain ⟨p, v⟩ := q
      simp only [casts, hc] at hr
      cases he : setPixel b p.1 p.2 v with
      | none => simp [he] at hr
      | some b' =>
        simp only [he] at hr
        have hdim : b'.w = b.w ∧ b'.h = b.h := by
          unfold setPixel at he
          obtain ⟨dd, _, rfl⟩ := Option.map_eq_some_iff.mp he
          exact ⟨rfl, rfl⟩
        rw [hbw, hbh] at hc
        intro i hi
        rcases List.mem_cons.mp hi with rfl | hi
        · exact ⟨v, ((cast_iff W Q c w h i cam hs hp p v).mp hc).2⟩
        · exact casts_ret W Q c w h cam hs hp is b' f (hdim.1.trans hbw) (hdim.2.trans hbh) hr i hi

theorem calls_perm (env : Env) (count : ℕ → ℕ) (n : ℕ) (hE : env.Complete n) : ((sppSample env count n 1).2.map Prod.fst).Perm (List.range n) := by
  have := ((C20_spp_sample env count n 1 (by rw [Nat.mul_one]; exact hE)).2).map Prod.fst
  refine this.trans ?_
  have : ∀ l : List ℕ, (l ×ˢ List.range 1).map Prod.fst = l := by
    intro l
    induction l with
    | nil => rfl
    | cons a l ih => rw [List.product_cons, List.map_append, ih]; rfl
  rw [this]

theorem clear_wf (b : Bitmap (V3 ℝ)) : WF (clear b) := by simp [WF, clear]

theorem render_ready {W : World} {accel : Bool} (hr : Ready W accel) (Q : Query) (c : Cfg) (b : Bitmap (V3 ℝ)) (run : ℕ × List (ℕ × ℕ)) :
    render W Q c accel b run = casts W Q c (clear b) (run.2.map Prod.fst) := by
  obtain ⟨h1, h2, cam, ⟨n, hn, _⟩, _⟩ := hr
  unfold render
  rw [if_neg (by simpa using h1), if_neg (by simp [h2]), if_neg (by simp [hn])]

/-! ### Theorems -/

/-- C90. If rendering returns, with any number of threads and any interleaving, then every pixel of the film shows the colour of the ray through its centre — whatever the film held before. -/
theorem C90_returned (W : World) (Q : Query) (c : Cfg) (accel : Bool) (hr : Ready W accel) (b : Bitmap (V3 ℝ)) (env : Env) (count : ℕ → ℕ) (hE : env.Complete (b.w * b.h))
    (f : Bitmap (V3 ℝ)) (h : render W Q c accel b (sppSample env count (b.w * b.h) 1) = .ret f) :
    f.w = b.w ∧ f.h = b.h ∧ ∀ x y, x < b.w → y < b.h → ∃ v, pixel f x y = some v ∧ Shows W Q c b.w b.h x y v := by
  rw [render_ready hr] at h
  obtain ⟨_, _, cam, hs, hp⟩ := hr
  have hperm := calls_perm env count (b.w * b.h) hE
  have hsh := casts_ret W Q c b.w b.h cam hs hp _ (clear b) f rfl rfl h
  rcases Nat.eq_zero_or_pos b.w with h0 | hw
  · have hnil : (sppSample env count (b.w * b.h) 1).2.map Prod.fst = [] := by
      have := hperm.length_eq
      rw [List.length_range, h0, Nat.zero_mul] at this
      rw [h0, Nat.zero_mul]
      exact List.length_eq_zero_iff.mp this
    rw [hnil] at h
    cases h
    exact ⟨rfl, rfl, fun x y hx => by omega⟩
  choose! g hg using hsh
  obtain ⟨f', e, _, f2, f3, f4⟩ := casts_spec W Q c b.w b.h hw cam hs hp g (fun i hi => hg i (hperm.mem_iff.mpr (List.mem_range.mpr hi))) _ (clear b) (clear_wf b) rfl rfl
    (fun i hi => List.mem_range.mp (hperm.mem_iff.mp hi))
  rw [e] at h
  cases h
  refine ⟨f2, f3, fun x y hx hy => ?_⟩
  have hi : y * b.w + x < b.w * b.h := by nlinarith
  have hm := hperm.mem_iff.mpr (List.mem_range.mpr hi)
  refine ⟨g (y * b.w + x), by rw [f4 x y hx hy, if_pos hm], ?_⟩
  have := hg _ hm
  rwa [show (y * b.w + x) % b.w = x by rw [Nat.add_comm, Nat.add_mul_mod_self_right, Nat.mod_eq_of_lt hx],
    show (y * b.w + x) / b.w = y by rw [Nat.add_comm, Nat.add_mul_div_right _ _ hw, Nat.div_eq_of_lt hx, Nat.zero_add]] at this

/-- What ray queries return refers to the scene: surfaces have a material, points at infinity belong to a light. -/
def HitOk (W : World) (sp : SI) : Prop :=
  (sp.geom.infinite = true → ∃ L, W.lightAt sp.primitive = some L) ∧ (sp.geom.infinite = false → sp.kind = .surface ∧ ∃ m, W.materialAt sp.primitive = some m)

/-- C90 (partial). Rendering a scene returns, under every schedule. Missing: the normal mode with an environment light in view (`C90_negation_normals`). -/
theorem C90_returns_partial (W : World) (Q : Query) (c : Cfg) (accel : Bool) (hr : Ready W accel) (b : Bitmap (V3 ℝ)) (env : Env) (count : ℕ → ℕ) (hE : env.Complete (b.w * b.h))
    (hq : ∀ o d sp, Q.isect o d = some sp → HitOk W sp) (hsky : c.normals = true → ∀ o d sp, Q.isect o d = some sp → sp.geom.infinite = false) :
    ∃ f, render W Q c accel b (sppSample env count (b.w * b.h) 1) = .ret f := by
  rw [render_ready hr]
  obtain ⟨_, _, cam, hs, hp⟩ := hr
  have hperm := calls_perm env count (b.w * b.h) hE
  have hex : ∀ i, ∃ v, Shows W Q c b.w b.h (i % b.w) (i / b.w) v := by
    intro i
    obtain ⟨d, _, h1, ht⟩ := C47_primary cam hp ((((i % b.w : ℕ) : ℝ) + 1 / 2) / b.w) ((((i / b.w : ℕ) : ℝ) + 1 / 2) / b.h)
    obtain ⟨v, hv⟩ : ∃ v, Colour W c d (Q.isect cam.position d) v := by
      cases ho : Q.isect cam.position d with
      | none => exact ⟨_, .background⟩
      | some sp =>
        have hok := hq _ _ _ ho
        cases hn : c.normals with
        | true => exact ⟨_, .normal sp hn (hsky hn _ _ _ ho)⟩
        | false =>
          cases hf : sp.geom.infinite with
          | true =>
            obtain ⟨L, hL⟩ := hok.1 hf
            exact ⟨_, .sky sp L hn hf hL⟩
          | false =>
            obtain ⟨hk, m, hm⟩ := hok.2 hf
            obtain ⟨R, hR⟩ : ∃ R, c.color = some R ∨ (c.color = none ∧ sp.kind = .surface ∧ ∃ m, W.materialAt sp.primitive = some m ∧ R = m.reflectance sp.geom) := by
              cases hc : c.color with
              | some R => exact ⟨R, .inl rfl⟩
              | none => exact ⟨_, .inr ⟨rfl, hk, m, hm, rfl⟩⟩
            cases hcc : c.constant with
            | true => exact ⟨_, .surface sp R 1 hn hf hR (.inl ⟨hcc, rfl⟩)⟩
            | false => exact ⟨_, .surface sp R _ hn hf hR (.inr ⟨hcc, rfl⟩)⟩
    exact ⟨v, cam, d, hs, h1, ht, hv⟩
  choose g hg using hex
  rcases Nat.eq_zero_or_pos b.w with h0 | hw
  · have hnil : (sppSample env count (b.w * b.h) 1).2.map Prod.fst = [] := by
      have := hperm.length_eq
      rw [List.length_range, h0, Nat.zero_mul] at this
      rw [h0, Nat.zero_mul]
      exact List.length_eq_zero_iff.mp this
    rw [hnil]
    exact ⟨_, rfl⟩
  obtain ⟨f, e, _⟩ := casts_spec W Q c b.w b.h hw cam hs hp g (fun i _ => hg i) _ (clear b) (clear_wf b) rfl rfl (fun i hi => List.mem_range.mp (hperm.mem_iff.mp hi))
  exact ⟨f, e⟩

theorem colour_unique {W : World} {c : Cfg} {d : V3 ℝ} {o : Option SI} {v v' : V3 ℝ} (h : Colour W c d o v) (h' : Colour W c d o v') : v = v' := by
  have := (shade_iff W c d o v).mpr h
  rw [(shade_iff W c d o v').mpr h'] at this
  cases this
  rfl

/-- C90. Each pixel has one colour: the image does not depend on the schedule, the number of threads or the previous content of the film. -/
theorem C90_deterministic (W : World) (Q : Query) (c : Cfg) (accel : Bool) (hr : Ready W accel) (b b' : Bitmap (V3 ℝ)) (hbw : b'.w = b.w) (hbh : b'.h = b.h)
    (env env' : Env) (count count' : ℕ → ℕ) (hE : env.Complete (b.w * b.h)) (hE' : env'.Complete (b.w * b.h)) (f f' : Bitmap (V3 ℝ))
    (h : render W Q c accel b (sppSample env count (b.w * b.h) 1) = .ret f) (h' : render W Q c accel b' (sppSample env' count' (b.w * b.h) 1) = .ret f') (x y : ℕ) (hx : x < b.w) (hy : y < b.h) :
    pixel f x y = pixel f' x y := by
  obtain ⟨_, _, p1⟩ := C90_returned W Q c accel hr b env count hE f h
  obtain ⟨_, _, p2⟩ := C90_returned W Q c accel hr b' env' count' (by rw [hbw, hbh]; exact hE') f' (by rw [hbw, hbh]; exact h')
  obtain ⟨v, e1, cam, d, ⟨n, hn, hc⟩, h1, ht, hv⟩ := p1 x y hx hy
  obtain ⟨v', e2, cam', d', ⟨n', hn', hc'⟩, h1', ht', hv'⟩ := p2 x y (by omega) (by omega)
  obtain ⟨_, _, cam0, ⟨n0, hn0, hc0⟩, hp⟩ := hr
  rw [hn] at hn' hn0
  obtain rfl := Option.some.inj hn'
  obtain rfl := Option.some.inj hn0
  rw [hc] at hc' hc0
  obtain rfl := Option.some.inj hc'
  obtain rfl := Option.some.inj hc0
  rw [hbw, hbh] at ht'
  obtain rfl := towards_unique hp h1 h1' ht ht'
  rw [e1, e2, colour_unique hv hv']

/-- C90. The ray of a pixel is the one whose raster position is the centre of the pixel, and that position belongs to this pixel. -/
theorem C90_centre (cam : Camera) (hp : cam.Proper) (w h x y : ℕ) (hx : x < w) (hy : y < h) (hw : w < 2 ^ 31) (hh : h < 2 ^ 31) (d : V3 ℝ)
    (ht : cam.Towards d (((x : ℝ) + 1 / 2) / w) (((y : ℝ) + 1 / 2) / h)) :
    rasterPosition cam d = some (((x : ℝ) + 1 / 2) / w, ((y : ℝ) + 1 / 2) / h) ∧ rasterToPixel (((x : ℝ) + 1 / 2) / w) (((y : ℝ) + 1 / 2) / h) w h = some ((x : ℤ), (y : ℤ)) := by
  have cell : ∀ a n : ℕ, a < n → (0 : ℝ) ≤ ((a : ℝ) + 1 / 2) / n ∧ ((a : ℝ) + 1 / 2) / n < 1 ∧ (a : ℝ) / n ≤ ((a : ℝ) + 1 / 2) / n ∧ ((a : ℝ) + 1 / 2) / n < ((a : ℝ) + 1) / n := by
    intro a n han
    have hn : (0 : ℝ) < n := by exact_mod_cast (by omega : 0 < n)
    have ha : (a : ℝ) + 1 ≤ n := by exact_mod_cast han
    refine ⟨by positivity, ?_, ?_, ?_⟩
    · rw [div_lt_one hn]; linarith
    · exact div_le_div_of_nonneg_right (by linarith) hn.le
    · exact div_lt_div_of_pos_right (by linarith) hn
  obtain ⟨a1, a2, a3, a4⟩ := cell x w hx
  obtain ⟨b1, b2, b3, b4⟩ := cell y h hy
  constructor
  · rw [C47_raster cam hp d _ _ ht, if_pos ⟨⟨a1, a2.le⟩, b1, b2.le⟩]
  · exact (C23_cell _ _ w h (by omega) (by omega) hw hh ⟨a1, a2⟩ ⟨b1, b2⟩ x y).mpr ⟨⟨a3, a4⟩, b3, b4⟩

/-- C90. Surfaces with a unit normal show between 1/5 and 1 times their colour R in every channel, the same from either side. -/
theorem C90_shading (W : World) (c : Cfg) (d : V3 ℝ) (hd : V3.dot d d = 1) (sp : SI) (v R : V3 ℝ) (hn : c.normals = false) (hf : sp.geom.infinite = false) (hu : V3.dot sp.geom.n sp.geom.n = 1)
    (hR : c.color = some R ∨ (c.color = none ∧ sp.kind = .surface ∧ ∃ m, W.materialAt sp.primitive = some m ∧ R = m.reflectance sp.geom)) (h : Colour W c d (some sp) v) :
    ∃ s : ℝ, 1 / 5 ≤ s ∧ s ≤ 1 ∧ v = s • R ∧ (c.constant = true → s = 1) := by
  have h1 : |V3.dot sp.geom.n d| ≤ 1 := by
    rw [abs_le]
    constructor <;> nlinarith [sq_nonneg (sp.geom.n.x - d.x), sq_nonneg (sp.geom.n.y - d.y), sq_nonneg (sp.geom.n.z - d.z), sq_nonneg (sp.geom.n.x + d.x), sq_nonneg (sp.geom.n.y + d.y),
      sq_nonneg (sp.geom.n.z + d.z), show V3.dot sp.geom.n d = sp.geom.n.x * d.x + sp.geom.n.y * d.y + sp.geom.n.z * d.z from rfl,
      show sp.geom.n.x * sp.geom.n.x + sp.geom.n.y * sp.geom.n.y + sp.geom.n.z * sp.geom.n.z = 1 from hu, show d.x * d.x + d.y * d.y + d.z * d.z = 1 from hd]
  have h0 := abs_nonneg (V3.dot sp.geom.n d)
  cases hcc : c.constant with
  | true => exact ⟨1, by norm_num, le_rfl, colour_unique h (.surface sp R 1 hn hf hR (.inl ⟨hcc, rfl⟩)), fun _ => rfl⟩
  | false =>
    exact ⟨_, by linarith, by linarith, colour_unique h (.surface sp R _ hn hf hR (.inr ⟨hcc, rfl⟩)), fun h => by cases h⟩

/-- C90 (negation). In the normal mode an environment light in view makes rendering undefined, whatever the schedule: the normal of the point at infinity is read, which nobody initialised. -/
theorem C90_negation_normals : ∃ (W : World) (Q : Query) (c : Cfg), Ready W true ∧ (∀ o d sp, Q.isect o d = some sp → HitOk W sp) ∧
    ∀ (b : Bitmap (V3 ℝ)) (env : Env) (count : ℕ → ℕ), 0 < b.w * b.h → env.Complete (b.w * b.h) → render W Q c true b (sppSample env count (b.w * b.h) 1) = .undef := by
  have hready : Ready exSky true := ⟨by show 1 < 4; norm_num, rfl, exCam, ⟨_, rfl, rfl⟩, Transport.exCam_proper⟩
  refine ⟨exSky, exSkyQ, ⟨0, false, true, none⟩, hready, ?_, ?_⟩
  · intro o d sp h
    cases h
    exact ⟨fun _ => ⟨_, rfl⟩, fun h => by cases h⟩
  · intro b env count hpos hE
    rw [render_ready hready]
    have hperm := calls_perm env count (b.w * b.h) hE
    cases hl : (sppSample env count (b.w * b.h) 1).2.map Prod.fst with
    | nil =>
      have := hperm.length_eq
      rw [hl, List.length_range] at this
      exact absurd this.symm hpos.ne'
    | cons i is =>
      have hcast : ∀ w h, cast exSky exSkyQ ⟨0, false, true, none⟩ w h i = .undef := by
        intro w h
        obtain ⟨d, hd, _⟩ := C47_primary exCam Transport.exCam_proper ((((i % w : ℕ) : ℝ) + 1 / 2) / w) ((((i / w : ℕ) : ℝ) + 1 / 2) / h)
        have hc : exSky.st.camera = some 3 := rfl
        have hc' : exSky.cameraAt 3 = some exCam := rfl
        simp only [cast, hc, hc', hd]
        rfl
      simp only [casts, hcast]

/-- The hypotheses are met: a diffuse floor under a sky, seen from above, on a film of two pixels, by one thread; both pixels show between 1/10 and 1/2. -/
example (b : Bitmap (V3 ℝ)) (hw : b.w = 2) (hh : b.h = 1) : ∃ f, render Transport.exFloor Transport.exFloorQ ⟨0, false, false, none⟩ true b (sppSample exEnv (fun _ => 0) (b.w * b.h) 1) = .ret f ∧
    ∀ x, x < 2 → ∃ s : ℝ, pixel f x 0 = some (s • V3.all (1 / 2)) ∧ 1 / 5 ≤ s ∧ s ≤ 1 := by
  have hready : Ready Transport.exFloor true := ⟨by show 1 < 4; norm_num, rfl, exCam, ⟨_, rfl, rfl⟩, Transport.exCam_proper⟩
  have hE : exEnv.Complete (b.w * b.h) := by rw [hw, hh]; exact exEnv_complete
  have hq : ∀ o d sp, Transport.exFloorQ.isect o d = some sp → HitOk Transport.exFloor sp := by
    intro o d sp h
    rcases Transport.floor_isect h with ⟨_, _, x', y', rfl⟩ | ⟨_, rfl⟩
    · exact ⟨fun h => (by cases h), fun _ => ⟨rfl, _, rfl⟩⟩
    · exact ⟨fun _ => ⟨_, rfl⟩, fun h => by cases h⟩
  obtain ⟨f, hf⟩ := C90_returns_partial Transport.exFloor Transport.exFloorQ ⟨0, false, false, none⟩ true hready b exEnv (fun _ => 0) hE hq (fun h => by cases h)
  · refine ⟨f, hf, fun x hx => ?_⟩
    obtain ⟨_, _, hp⟩ := C90_returned _ _ _ _ hready _ exEnv (fun _ => 0) hE f hf
    obtain ⟨v, hv, cam, d, ⟨n, hn, hc⟩, hd, ht, hcol⟩ := hp x 0 (by omega) (by omega)
    have hn0 : Transport.exFloor.st.camera = some 3 := rfl
    rw [hn0] at hn
    obtain rfl := Option.some.inj hn
    have hc0 : Transport.exFloor.cameraAt 3 = some exCam := rfl
    rw [hc0] at hc
    obtain rfl := Option.some.inj hc
    obtain ⟨sp, hsp⟩ : ∃ sp, Transport.exFloorQ.isect exCam.position d = some sp := ⟨_, rfl⟩
    rw [hsp] at hcol
    rcases Transport.floor_isect hsp with ⟨_, _, x', y', rfl⟩ | ⟨hno, _⟩
    · obtain ⟨s, s1, s2, s3, _⟩ := C90_shading Transport.exFloor _ d hd (Transport.floorAt x' y') v (V3.all (1 / 2)) rfl rfl (by simp [Transport.floorAt, V3.dot]) (.inr ⟨rfl, rfl, _, rfl, rfl⟩) hcol
      exact ⟨s, by rw [hv, s3], s1, s2⟩
    · exfalso
      apply hno
      obtain ⟨k, hk, he⟩ := ht
      have hz := congrArg V3.z he
      simp [Camera.screen, exCam] at hz ⊢
      nlinarith

end LM.Raycast
