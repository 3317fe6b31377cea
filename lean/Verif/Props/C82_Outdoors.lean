import Verif.Props.C82_Skins
import Verif.Spec.Outdoors
/-
  C82 in scenes of separate triangles with area lights and an environment light.
-/
namespace LM.Transport
open MeasureTheory LM LM.Surface LM.Material LM.Light LM.MathF LM.Path LM.Render LM.Solid Set
open scoped ENNReal

variable {ps : List Part} {sgn : V3 ℝ → Bool} {junk : V3 ℝ} {W : World} {Q : Query} {n : Int} {cam : Camera} {sky : Int} {l0 : ℕ} {L : Light}
variable {node : ℕ → Int} {M : ℕ → Aff ℝ} {lsgn : V3 ℝ → Bool} {ljunk : V3 ℝ} {Ke : ℕ → V3 ℝ} {ts : ℕ → List Tri}

/-! ### The queries -/

theorem indoors_some {o d : V3 ℝ} {h : SI} : (indoors Q).isect o d = some h ↔ Q.isect o d = some h ∧ h.geom.infinite = false := by
  simp [indoors, Option.filter_eq_some_iff]

/-- What a ray meets. -/
theorem OpenSky.cases (h : Room W (indoors Q) n cam ps sgn junk) (hs : OpenSky Q (faces ps) sky) {o d : V3 ℝ} {hit : SI} (e : Q.isect o d = some hit) : V3.dot d d = 1 ∧
    (((indoors Q).isect o d = some hit ∧ hit.geom.infinite = false ∧ hit.primitive ≠ sky) ∨
      ((indoors Q).isect o d = none ∧ Passes (faces ps) o d ∧ hit.kind = .light ∧ hit.primitive = sky ∧ hit.geom.infinite = true ∧ hit.geom.wo = -d)) := by
  have hd : V3.dot d d = 1 := by
    by_contra hd
    rw [hs.unit o d hd] at e; cases e
  refine ⟨hd, ?_⟩
  by_cases hc : Passes (faces ps) o d
  · right
    obtain ⟨g, e2, h1, h2⟩ := hs.isect o d hd hc
    rw [e] at e2
    cases e2
    refine ⟨?_, hc, rfl, rfl, h1, h2⟩
    cases e3 : (indoors Q).isect o d with
    | none => rfl
    | some h' =>
      obtain ⟨e4, e5⟩ := indoors_some.mp e3
      rw [e] at e4
      cases e4
      rw [h1] at e5; cases e5
  · left
    unfold Passes at hc
    push Not at hc
    obtain ⟨f, hf, s, hx⟩ := hc
    obtain ⟨h', hh⟩ := firstHit_exists (vertexAt ps sgn junk) hf hx
    have e3 := (h.traced.isect o d h').mpr ⟨hd, hh⟩
    obtain ⟨e4, e5⟩ := indoors_some.mp e3
    rw [e] at e4
    cases e4
    refine ⟨e3, e5, ?_⟩
    obtain ⟨f', hf', _, _, rfl, _⟩ := hh
    exact hs.apart f' hf'

/-- Rays that meet nothing else meet the environment. -/
theorem OpenSky.clear (h : Room W (indoors Q) n cam ps sgn junk) {o d : V3 ℝ} (hd : V3.dot d d = 1) : (indoors Q).isect o d = none ↔ Passes (faces ps) o d := by
  constructor
  · intro e f hf s hx
    obtain ⟨h', hh⟩ := firstHit_exists (vertexAt ps sgn junk) hf hx
    rw [(h.traced.isect o d h').mpr ⟨hd, hh⟩] at e; cases e
  · intro hc
    cases e3 : (indoors Q).isect o d with
    | none => rfl
    | some h' =>
      obtain ⟨_, f, hf, s, hx, _⟩ := (h.traced.isect o d h').mp e3
      exact absurd hx (hc f hf s)

theorem OpenSky.seesSky (h : Room W (indoors Q) n cam ps sgn junk) (hs : OpenSky Q (faces ps) sky) {o d : V3 ℝ} : SeesSky Q sky o d ↔ V3.dot d d = 1 ∧ hitOf (indoors Q) o d = none := by
  have hh : hitOf (indoors Q) o d = none ↔ (indoors Q).isect o d = none := by simp [hitOf]
  rw [hh]
  constructor
  · rintro ⟨hit, e, hp⟩
    obtain ⟨hd, ⟨_, _, h3⟩ | ⟨h1, _⟩⟩ := hs.cases h e
    · exact absurd hp h3
    · exact ⟨hd, h1⟩
  · rintro ⟨hd, e⟩
    obtain ⟨g, e2, _⟩ := hs.isect o d hd ((OpenSky.clear h hd).mp e)
    exact ⟨_, e2, rfl⟩

/-- Other primitives are met as if there were no environment. -/
theorem OpenSky.same (h : Room W (indoors Q) n cam ps sgn junk) (hs : OpenSky Q (faces ps) sky) {o d : V3 ℝ} {hit : SI} (hp : hit.primitive ≠ sky) : Q.isect o d = some hit ↔ (indoors Q).isect o d = some hit := by
  refine ⟨fun e => ?_, fun e => (indoors_some.mp e).1⟩
  rcases (hs.cases h e).2 with h1 | h1
  · exact h1.1
  · exact absurd h1.2.2.2.1 hp

theorem measurable_miss (h : Room W (indoors Q) n cam ps sgn junk) : MeasurableSet {q : V3 ℝ × V3 ℝ | hitOf (indoors Q) q.1 q.2 = none} := by
  have e : {q : V3 ℝ × V3 ℝ | hitOf (indoors Q) q.1 q.2 = none} = (⋃ j : Int, {q : V3 ℝ × V3 ℝ | ∃ p, hitOf (indoors Q) q.1 q.2 = some (j, p)})ᶜ := by
    ext q
    simp only [mem_ofPred_eq, mem_compl_iff, mem_iUnion]
    cases e : hitOf (indoors Q) q.1 q.2 with
    | none => simp
    | some x => simp only [reduceCtorEq, false_iff, not_not]; exact ⟨x.1, x.2, rfl⟩
  rw [e]
  exact (MeasurableSet.iUnion fun j => h.faceted.meets j).compl

/-! ### The lights -/

theorem Heaven.lightAt {M : Aff ℝ} {sp : SI} (hL : Heaven L) (hs : ∀ junk, SkyAt Q sky junk sp) : LightAt Q sky M sp L := by
  cases hL with
  | const sgn junk Le c r hr hLe => exact .sky sgn junk Le c r hr hLe (hs junk)
  | map sgn junk tex ws w h d2 rot c r m hd => exact .map sgn junk tex ws w h d2 rot c r m hd (hs junk)

/-- What the environment emits against the direction d. -/
theorem Heaven.emits (hL : Heaven L) (i : Fin 3) : ∃ E : V3 ℝ → ℝ≥0∞, Measurable E ∧ ∀ (g : Geom) (d w : V3 ℝ) (b : Bool), g.wo = -d → ENNReal.ofReal (chan i (L.eval g w b)) = E d := by
  cases hL with
  | const sgn junk Le c r hr hLe => exact ⟨fun _ => ENNReal.ofReal (chan i Le), measurable_const, fun _ _ _ _ _ => rfl⟩
  | map sgn junk tex ws w h d2 rot c r m hd =>
    refine ⟨fun d => ENNReal.ofReal (chan i (tex (envCoords rot d).1 (envCoords rot d).2)), ((measurable_chan i).comp (m.texture.comp (measurable_envCoords rot))).ennreal_ofReal, fun g d w _ hg => ?_⟩
    simp [env, envEval, hg]

/-- Area lights, seen from a vertex of a path. -/
theorem area_lightAt' (h : Room W (indoors Q) n cam ps sgn junk) {sp : SI} (hf : sp.geom.infinite = false) {j : Int} {Mj : Aff ℝ} {tj : List Tri} {K : V3 ℝ}
    (hsame : ∀ {o d : V3 ℝ} {hit : SI}, hit.primitive = j → (Q.isect o d = some hit ↔ (indoors Q).isect o d = some hit)) (hA : 0 < (tj.map triArea).sum) (hM : Mj.det ≠ 0) (hS : ScalesArea Mj tj)
    (hK : NonNeg K) (hparts : ps.filter (·.prim = j) = tj.map fun t => ⟨j, Mj, t⟩) : LightAt Q j Mj sp (area lsgn ljunk K tj) := by
  have hpart : ∀ t ∈ tj, (⟨j, Mj, t⟩ : Part) ∈ ps := fun t ht => by
    have : (⟨j, Mj, t⟩ : Part) ∈ ps.filter (·.prim = j) := by rw [hparts]; exact List.mem_map.mpr ⟨t, ht, rfl⟩
    exact (List.mem_filter.mp this).1
  have hfil : (faces ps).filter (·.1 = j) = tj.map fun t => (j, triMap Mj t) := by
    unfold faces
    rw [List.filter_map]
    have : ((fun f : Int × Tri => decide (f.1 = j)) ∘ fun a : Part => (a.prim, triMap a.M a.t)) = fun a => decide (a.prim = j) := rfl
    rw [this, hparts, List.map_map]
    rfl
  have hsees : ∀ x p, SeesPoint Q j x p ↔ SeesPoint (indoors Q) j x p := fun x p =>
    ⟨fun ⟨hit, e, hp, h3⟩ => ⟨hit, (hsame hp).mp e, hp, h3⟩, fun ⟨hit, e, hp, h3⟩ => ⟨hit, (hsame hp).mpr e, hp, h3⟩⟩
  have hsky : ∀ x d, SeesSky Q j x d ↔ SeesSky (indoors Q) j x d := fun x d =>
    ⟨fun ⟨hit, e, hp⟩ => ⟨hit, (hsame hp).mp e, hp⟩, fun ⟨hit, e, hp⟩ => ⟨hit, (hsame hp).mpr e, hp⟩⟩
  have hF := h.faceted
  refine LightAt.area lsgn ljunk K tj hA hM hS hK ⟨hf, ?_, ?_, ?_, ?_⟩ ⟨?_, ?_⟩
  · intro g hg t ht hi hd
    have hm : (j, triMap Mj t) ∈ faces ps := mem_faces.mpr ⟨_, hpart t ht, rfl⟩
    rw [hsees]
    show (indoors Q).visible sp ⟨.light, j, g⟩ = true ↔ _
    rw [h.traced.visible _ _ hf hg, ← h.traced.sees_iff (fun j p => ⟨rfl, rfl⟩) hm hi hd]
    show hitOf (indoors Q) sp.geom.p (dirOf (g.p - sp.geom.p)) = some (j, g.p) ↔ ∃ hit, (indoors Q).isect sp.geom.p (dirOf (g.p - sp.geom.p)) = some hit ∧ hit.primitive = j ∧ hit.geom.p = g.p
    unfold hitOf
    cases (indoors Q).isect sp.geom.p (dirOf (g.p - sp.geom.p)) <;> simp
  · have := hF.seesPoint j sp.geom.p
    simp_rw [hsees]
    exact this
  · intro d hit hd hi hp
    have hi := (hsame hp).mp hi
    have hsm := hF.same _ d hit hd hi
    refine ⟨by rw [hsm]; rfl, by rw [hsm]; rfl, hF.ahead _ d hit hd hi⟩
  · filter_upwards [hF.once sp.geom.p] with d ho hit hi hp
    have hi := (hsame hp).mp hi
    have hd : V3.dot d d = 1 := by
      by_contra hd
      rw [h.unitOnly _ d hd] at hi; cases hi
    obtain ⟨k0, t, hk0, hin, huniq⟩ := ho hit hi
    have hmem : (j, t) ∈ (faces ps).filter (·.1 = j) := List.mem_filter.2 ⟨by rw [← hp]; exact List.mem_of_getElem? hk0, by simp⟩
    rw [hfil] at hmem
    obtain ⟨t0, ht0, e0⟩ := List.mem_map.1 hmem
    have e0 : triMap Mj t0 = t := (Prod.mk.inj e0).2
    obtain ⟨k, hk⟩ := List.getElem?_of_mem ht0
    refine ⟨k, t0, hk, by rw [e0]; exact hin, ?_, ?_⟩
    · rw [hF.same _ d hit hd hi, hp]
      exact normalAt_eq h.separate (hpart t0 ht0) (by rw [e0]; exact hin)
    · intro k' t' hk' hin'
      have hsub : (tj.map fun t => (j, triMap Mj t)).Sublist (faces ps) := hfil ▸ List.filter_sublist
      obtain ⟨e, he⟩ := List.sublist_iff_exists_orderEmbedding_getElem?_eq.1 hsub
      have h1 := he k
      have h2 := he k'
      rw [List.getElem?_map, hk, Option.map_some] at h1
      rw [List.getElem?_map, hk', Option.map_some] at h2
      rw [← hp] at h1 h2
      have u1 := huniq _ _ h1.symm (by rw [e0]; exact hin)
      have u2 := huniq _ _ h2.symm hin'
      exact e.injective (u2.trans u1.symm)
  · have := (hF.hits h.normals h.unitOnly j sp.geom.p).seen
    simp_rw [hsky]
    exact this
  · obtain ⟨P, N, hP, hN, hh⟩ := (hF.hits h.normals h.unitOnly j sp.geom.p).hit
    exact ⟨P, N, hP, hN, fun d hit hi hp => hh d hit ((hsame hp).mp hi) hp⟩

theorem area_lightAt (h : Room W (indoors Q) n cam ps sgn junk) (hs : OpenSky Q (faces ps) sky) {sp : SI} (hf : sp.geom.infinite = false) {j : Int} {Mj : Aff ℝ} {tj : List Tri} {K : V3 ℝ} (hj : j ≠ sky) (hA : 0 < (tj.map triArea).sum) (hM : Mj.det ≠ 0) (hS : ScalesArea Mj tj)
    (hK : NonNeg K) (hparts : ps.filter (·.prim = j) = tj.map fun t => ⟨j, Mj, t⟩) : LightAt Q j Mj sp (area lsgn ljunk K tj) :=
  area_lightAt' h hf (fun hp => hs.same h (by rw [hp]; exact hj)) hA hM hS hK hparts

/-- The environment, seen from a vertex of a path. -/
theorem OpenSky.skyAt (h : Room W (indoors Q) n cam ps sgn junk) (hs : OpenSky Q (faces ps) sky) {sp : SI} {wi : V3 ℝ} (hv : Vertex W Q n cam sp wi) (j : V3 ℝ) : SkyAt Q sky j sp where
  regular := by
    rcases hv with ⟨e, _⟩ | ⟨o, d, hd, hi, hf, _⟩
    · left; rw [e]; rfl
    · right
      obtain ⟨_, ⟨hi, _, _⟩ | ⟨_, _, _, _, hf', _⟩⟩ := hs.cases h hi
      · intro e0
        have := (h.face hi).2
        rw [e0] at this
        simp [V3.dot] at this
      · rw [hf] at hf'; cases hf'
  faces d hit hi hp := by
    obtain ⟨_, ⟨_, _, h3⟩ | ⟨_, _, _, _, _, h3⟩⟩ := hs.cases h hi
    · exact absurd hp h3
    · exact h3
  visible wo hwo := by
    have hd : V3.dot (-wo) (-wo) = 1 := by simpa [V3.dot] using hwo
    rw [hs.visible sp _ hv.finite rfl hwo, hs.seesSky h]
    have hh : hitOf (indoors Q) sp.geom.p (-wo) = none ↔ (indoors Q).isect sp.geom.p (-wo) = none := by simp [hitOf]
    rw [hh, OpenSky.clear h hd]
    exact ⟨fun e => ⟨hd, e⟩, fun e => e.2⟩
  measurable := by
    simp_rw [hs.seesSky h]
    exact (measurableSet_eq_fun measurable_dot measurable_const).inter ((measurable_const.prodMk measurable_id) (measurable_miss h))

/-- The light emitted by the triangles. -/
theorem Daylight.measurable (h : Room W (indoors Q) n cam ps sgn junk) (hs : OpenSky Q (faces ps) (node l0)) (hl : Daylight W ps l0 L node M lsgn ljunk Ke ts) (i : Fin 3) : Adjoint.Meas (emission W (faces ps) (vertexAt ps sgn junk) i) := by
  refine measurable_spot fun j => ?_
  have hpr : ∀ j p, (vertexAt ps sgn junk j p).primitive = j := fun j p => rfl
  by_cases hj : j ∈ (faces ps).map (·.1)
  · cases hLj : W.lightAt j with
    | none => simp_rw [emission_none hpr i hLj]; exact measurable_const
    | some L' =>
      obtain ⟨a, ha, rfl⟩ := prims_faces.mp hj
      obtain ⟨l, hll, e⟩ := hl.only a ha L' hLj
      have hne : l ≠ l0 := by
        rintro rfl
        exact hs.apart _ (mem_faces.mpr ⟨a, ha, rfl⟩) e
      have ht := hl.table.light l hll
      rw [if_neg hne, ← e] at ht
      have hem : ∀ p w, emission W (faces ps) (vertexAt ps sgn junk) i (a.prim, p) w = front i (Ke l) (vertexAt ps sgn junk a.prim p).geom.n w := fun p w => by
        unfold emission
        rw [if_pos hj]
        unfold emitted
        dsimp only
        rw [hpr, ht]
        rfl
      simp_rw [hem]
      exact measurable_front' i (Ke l) ((h.normals a.prim).comp measurable_fst) measurable_snd
  · have : ∀ q : V3 ℝ × V3 ℝ, emission W (faces ps) (vertexAt ps sgn junk) i (j, q.1) q.2 = 0 := fun q => if_neg hj
    simp_rw [this]
    exact measurable_const

/-! ### Light between the surfaces -/

/-- The light that arrives is a measurable function of the point and the direction. -/
theorem OpenSky.incoming (h : Room W (indoors Q) n cam ps sgn junk) (hs : OpenSky Q (faces ps) sky) (hsky : W.lightAt sky = some L) (hL : Heaven L) {comps : SI → V3 ℝ → Finset ℕ} {m : Int → Mat} {C : Int → Geom → V3 ℝ → Finset ℕ}
    (hmat : ∀ a ∈ ps, W.materialAt a.prim = some (m a.prim)) (hcomps : ∀ j p wi, comps (vertexAt ps sgn junk j p) wi = C j (vertexAt ps sgn junk j p).geom wi) (hg : ∀ j, Gathers (vertexAt ps sgn junk j) (m j) (C j)) (i : Fin 3)
    (hE : Adjoint.Meas (emission W (faces ps) (vertexAt ps sgn junk) i)) (k : ℕ) : ∃ I : V3 ℝ × V3 ℝ → ℝ≥0∞, Measurable I ∧ ∀ sp d, (optics W Q i comps).incoming k sp d = I (sp.geom.p, d) := by
  classical
  obtain ⟨S, hS, hSe⟩ := hL.emits i
  induction k with
  | zero => exact ⟨0, measurable_const, fun _ _ => rfl⟩
  | succ k ih =>
    obtain ⟨I, hI, hIe⟩ := ih
    have hx : ∀ j, ∃ G : V3 ℝ × V3 ℝ → ℝ≥0∞, Measurable G ∧ ((∃ a ∈ ps, a.prim = j) → ∀ p wi, V3.dot wi wi = 1 → V3.dot wi (vertexAt ps sgn junk j p).geom.n ≠ 0 →
        ∑ c ∈ C j (vertexAt ps sgn junk j p).geom wi, ∫⁻ d, I (p, d) ∂Transport.scattered W i (vertexAt ps sgn junk j p) wi c = G (p, wi)) := fun j => by
      by_cases hj : ∃ a ∈ ps, a.prim = j
      · obtain ⟨a, ha, rfl⟩ := hj
        obtain ⟨G, h1, h2⟩ := (hg a.prim).integral h (hmat a ha) i hI
        exact ⟨G, h1, fun _ => h2⟩
      · exact ⟨0, measurable_const, fun h => absurd h hj⟩
    choose G hG hGe using hx
    have hGm : Measurable fun q : Spot × V3 ℝ => G q.1.1 (q.1.2, q.2) := measurable_spot (F := fun x w => G x.1 (x.2, w)) fun j => hG j
    have hsum : Measurable fun q : (V3 ℝ × V3 ℝ) × Spot => emission W (faces ps) (vertexAt ps sgn junk) i q.2 (-q.1.2) + G q.2.1 (q.2.2, -q.1.2) := by
      have harr : Measurable fun q : (V3 ℝ × V3 ℝ) × Spot => (q.2, -q.1.2) := measurable_snd.prodMk (measurable_neg3.comp (measurable_snd.comp measurable_fst))
      exact (Measurable.comp hE harr).add (hGm.comp harr)
    have hfin := h.faceted.measurable_hit (α := V3 ℝ × V3 ℝ) (o := fun a => a.1) (d := fun a => a.2) (F := fun a x => emission W (faces ps) (vertexAt ps sgn junk) i x (-a.2) + G x.1 (x.2, -a.2)) measurable_fst measurable_snd hsum
    have hmiss : MeasurableSet {a : V3 ℝ × V3 ℝ | V3.dot a.2 a.2 = 1 ∧ hitOf (indoors Q) a.1 a.2 = none} :=
      ((measurableSet_eq_fun measurable_dot measurable_const).preimage measurable_snd).inter (measurable_miss h)
    refine ⟨fun a => (match hitOf (indoors Q) a.1 a.2 with | none => 0 | some x => emission W (faces ps) (vertexAt ps sgn junk) i x (-a.2) + G x.1 (x.2, -a.2)) +
      (if a ∈ {a : V3 ℝ × V3 ℝ | V3.dot a.2 a.2 = 1 ∧ hitOf (indoors Q) a.1 a.2 = none} then S a.2 else 0), hfin.add (Measurable.ite hmiss (hS.comp measurable_snd) measurable_const), fun sp d => ?_⟩
    show (match Q.isect sp.geom.p d with | none => 0 | some hit => emitted W i hit (-d) + if hit.geom.infinite then 0 else ∑ c ∈ comps hit (-d), ∫⁻ d', (optics W Q i comps).incoming k hit d' ∂Transport.scattered W i hit (-d) c) = _
    beta_reduce
    cases hi : Q.isect sp.geom.p d with
    | none =>
      have h1 : (indoors Q).isect sp.geom.p d = none := by
        cases e3 : (indoors Q).isect sp.geom.p d with
        | none => rfl
        | some h' => rw [(indoors_some.mp e3).1] at hi; cases hi
      have h2 : hitOf (indoors Q) sp.geom.p d = none := by simp [hitOf, h1]
      rw [if_neg, h2, add_zero]
      rintro ⟨hd, _⟩
      obtain ⟨g, e2, _⟩ := hs.isect _ d hd ((OpenSky.clear h hd).mp h1)
      rw [hi] at e2; cases e2
    | some hit =>
      obtain ⟨hd, ⟨e, hf, _⟩ | ⟨e, _, _, hp, hf, hwo⟩⟩ := hs.cases h hi
      · have h2 : hitOf (indoors Q) sp.geom.p d = some (hit.primitive, hit.geom.p) := by simp [hitOf, e]
        rw [if_neg (by rintro ⟨_, h3⟩; rw [h2] at h3; cases h3), add_zero, h2]
        obtain ⟨⟨a, ha, hja⟩, hgr⟩ := h.face e
        have hs := h.faceted.same _ _ _ hd e
        dsimp only
        set j := hit.primitive with hjd
        set p := hit.geom.p with hpd
        have hdn : V3.dot (-d) (-d) = 1 := by simpa [V3.dot] using hd
        have hgn : V3.dot (-d) (vertexAt ps sgn junk j p).geom.n ≠ 0 := by
          rw [← hs, V3.dot_comm, V3.dot_neg_right, V3.dot_comm]; exact neg_ne_zero.mpr hgr
        have hj : j ∈ (faces ps).map (·.1) := prims_faces.mpr ⟨a, ha, hja.symm⟩
        rw [hs, hcomps, ← hGe j ⟨a, ha, hja.symm⟩ p (-d) hdn hgn]
        congr 1
        · exact (if_pos hj).symm
        · show (if false = true then _ else _) = _
          rw [if_neg (by simp)]
          refine Finset.sum_congr rfl fun c _ => lintegral_congr fun d' => ?_
          rw [hIe]; rfl
      · have h2 : hitOf (indoors Q) sp.geom.p d = none := by simp [hitOf, e]
        rw [if_pos (show (sp.geom.p, d) ∈ {a : V3 ℝ × V3 ℝ | V3.dot a.2 a.2 = 1 ∧ hitOf (indoors Q) a.1 a.2 = none} from ⟨hd, h2⟩), h2, zero_add]
        dsimp only
        rw [if_pos hf, add_zero]
        unfold emitted
        rw [hp, hsky]
        exact hSe _ _ _ _ hwo

/-- C82. The path tracer, in every scene of separate triangles with an environment light, constant or given by a map, and any number of area lights, whose surfaces are diffuse, glossy, mirrors, transparent, mixtures of these of either kind, glass, or
    have the material of OBJ models, whose masks cut holes, in every sampling mode: its expected value on the film is the integral, over the film, of the radiance arriving along the primary rays by light paths with the given number of vertices. -/
theorem C82_outdoors (h : Room W (indoors Q) n cam ps sgn junk) (hs : OpenSky Q (faces ps) (node l0)) {skin : Int → Skin} (hp : Dress W ps sgn junk skin) (hl : Daylight W ps l0 L node M lsgn ljunk Ke ts) (i : Fin 3)
    (cfg : Cfg) (dir : ℝ × ℝ → V3 ℝ) (hdir : ∀ q, primaryRay cam q.1 q.2 = some (dir q)) (H : ℝ × ℝ → ℝ≥0∞) (hH : Measurable H) (u : RaySampleU) (uc : ℝ) (rs : ℕ → Rnd) :
    average (cfg.maxVerts - 1) 1 rs (fun rs' => measured i H (ptSample W Q cfg u uc rs')) = ∫⁻ q, H q * (optics W Q i (compsOf skin)).incoming (cfg.maxVerts - 1) (camVertex W n cam) (dir q) ∂uniform2 := by
  have hE := hl.measurable h hs i
  have hsky : W.lightAt (node l0) = some L := by
    have := hl.table.light l0 hl.inside
    rwa [if_pos rfl] at this
  have hprim : (W.prim (node l0)).isSome := by
    unfold World.lightAt at hsky
    cases e : W.prim (node l0) with
    | none => rw [e] at hsky; cases hsky
    | some _ => rfl
  have hinj : ∀ l < W.st.lights.length, l ≠ l0 → node l ≠ node l0 := fun l hll hne e => by
    have h1 := hl.table.index l hll
    rw [e, hl.table.index l0 hl.inside] at h1
    exact hne (Option.some.inj h1).symm
  have hreg : Regular W Q n cam (compsOf skin) := by
    refine ⟨h.cameraAt, h.proper, rfl, fun o d hit hd hi hf => ?_, fun o d hit hd hi hf => ?_⟩
    · obtain ⟨_, ⟨e, _⟩ | ⟨_, _, _, _, hf', _⟩⟩ := hs.cases h hi
      · obtain ⟨⟨a, ha, hja⟩, hgr⟩ := h.face e
        have hs := h.faceted.same o d hit hd e
        have hdn : V3.dot (-d) (-d) = 1 := by simpa [V3.dot] using hd
        have hgn : V3.dot (-d) (vertexAt ps sgn junk hit.primitive hit.geom.p).geom.n ≠ 0 := by
          rw [← hs, V3.dot_comm, V3.dot_neg_right, V3.dot_comm]; exact neg_ne_zero.mpr hgr
        have hk := Skin.ok (hp.sound hit.primitive) hit.geom.p (-d) (h.on _ _) hdn hgn
        have hon := h.on hit.primitive hit.geom.p
        have hcomp : compsOf skin hit (-d) = (skin hit.primitive).comps hit.geom (-d) := by
          have hkind : hit.kind = .surface := by rw [hs]; rfl
          simp only [compsOf, hkind]
        rw [← hs] at hk hon
        refine ⟨by rw [hs]; rfl, by rw [hs]; rfl, hon, hgr, (skin hit.primitive).mat, by rw [hja]; exact hp.material a ha, ?_⟩
        rw [hcomp]; exact hk
      · rw [hf] at hf'; cases hf'
    · obtain ⟨_, ⟨_, hf', _⟩ | ⟨_, _, hk, hpr, _⟩⟩ := hs.cases h hi
      · rw [hf] at hf'; cases hf'
      · exact ⟨hk, by rw [hpr]; exact hprim⟩
  have hinc := OpenSky.incoming h hs hsky hl.heaven (comps := compsOf skin) (m := fun j => (skin j).mat) (C := fun j g wi => (skin j).comps g wi) hp.material (fun _ _ _ => rfl) (fun j => Skin.gathers h (hp.sound j)) i hE
  refine C82_lamps hreg h.camera hl.table (fun sp wi hv l hll => ?_) (fun o d hit hi hL => ?_) i (fun k sp _ _ => ?_) cfg dir hdir H hH u uc rs
  · by_cases hne : l = l0
    · subst hne
      rw [if_pos rfl]
      exact hl.heaven.lightAt fun j => hs.skyAt h hv j
    · rw [if_neg hne]
      obtain ⟨h1, h2, h3⟩ := hl.size l hll hne
      exact area_lightAt h hs hv.finite (hinj l hll hne) h1 h2 h3 (hl.nonneg l hll hne) (hl.parts l hll hne)
  · obtain ⟨L', hL⟩ := Option.isSome_iff_exists.1 hL
    obtain ⟨_, ⟨e, _⟩ | ⟨_, _, _, hpr, _⟩⟩ := hs.cases h hi
    · obtain ⟨⟨a, ha, hja⟩, _⟩ := h.face e
      rw [hja] at hL ⊢
      exact hl.only a ha L' hL
    · exact ⟨l0, hl.inside, hpr⟩
  · obtain ⟨I, hI, hIe⟩ := hinc k
    refine (congrArg Measurable (funext fun d => (hIe sp d).symm)).mp ?_
    exact hI.comp (measurable_const.prodMk measurable_id)

/-! ### Every list of separate triangles has such queries -/

open Classical in
/-- The nearest intersection, or the environment. -/
noncomputable def skyQ (Fs : List (Int × Tri)) (vertex : Int → V3 ℝ → SI) (sky : Int) : Query where
  isect o d := if V3.dot d d = 1 then some (((traceQ Fs vertex).isect o d).getD ⟨.light, sky, makeInfinite (-d) 0 0⟩) else none
  visible s1 s2 := if s2.geom.infinite then decide (Passes Fs s1.geom.p (-s2.geom.wo)) else decide (Unblocked Fs s1.geom.p s2.geom.p)

theorem skyQ_indoors {Fs : List (Int × Tri)} {vertex : Int → V3 ℝ → SI} (hs : Separate Fs) (hf : ∀ j p, (vertex j p).geom.infinite = false) (sky : Int) : Traced (indoors (skyQ Fs vertex sky)) Fs vertex where
  isect o d hit := by
    have ht := traceQ_traced vertex hs
    rw [indoors_some]
    unfold skyQ
    dsimp only
    constructor
    · rintro ⟨e, hi⟩
      by_cases hd : V3.dot d d = 1
      · rw [if_pos hd] at e
        cases e2 : (traceQ Fs vertex).isect o d with
        | none =>
          rw [e2] at e
          cases e
          cases hi
        | some h' =>
          rw [e2] at e
          cases e
          exact (ht.isect o d _).mp e2
      · rw [if_neg hd] at e; cases e
    · intro e
      rw [if_pos e.1, (ht.isect o d hit).mpr e]
      refine ⟨rfl, ?_⟩
      obtain ⟨f, _, _, _, rfl, _⟩ := e.2
      exact hf _ _
  visible s1 s2 _ h2 := by
    show (if s2.geom.infinite then _ else _) = true ↔ _
    rw [h2]
    simp

theorem skyQ_open {Fs : List (Int × Tri)} {vertex : Int → V3 ℝ → SI} (hs : Separate Fs) {sky : Int} (ha : ∀ f ∈ Fs, f.1 ≠ sky) : OpenSky (skyQ Fs vertex sky) Fs sky where
  isect o d hd hc := by
    refine ⟨makeInfinite (-d) 0 0, ?_, rfl, rfl⟩
    unfold skyQ
    dsimp only
    rw [if_pos hd]
    cases e : (traceQ Fs vertex).isect o d with
    | none => rfl
    | some h' =>
      obtain ⟨_, f, hf, s, hx, _⟩ := ((traceQ_traced vertex hs).isect o d h').mp e
      exact absurd hx (hc f hf s)
  unit o d hd := if_neg hd
  visible s g _ hg _ := by
    show (if g.infinite then _ else _) = true ↔ _
    rw [hg]
    simp
  apart := ha

/-! ### Concrete scenes: that of C82_Scenes under a sky; the triangles beside the lamp have any of the materials -/

noncomputable def exDayOps : List (Scene.Op (Aff ℝ)) := [.createPrimitive ⟨some 0, some 1, some 0, none, none⟩, .createPrimitive ⟨some 1, some 0, none, none, none⟩, .createPrimitive ⟨none, none, none, some 0, none⟩,
  .createPrimitive ⟨none, none, some 1, none, none⟩, .addChild 0 1, .addChild 0 2, .addChild 0 3, .addChild 0 4]

noncomputable def exDay (s : Skin) (L : Light) : World where
  st := Scene.buildLights (Scene.run (fun l => l == 1) Scene.reset exDayOps) [(0, 1), (1, 1), (2, 1), (3, 1), (4, 1)]
  light l := if l = 1 then L else area (fun _ => false) 0 (V3.all 1) [glowTri]
  material := fun k => if k = 0 then s.mat else diffuse (fun _ => V3.all (1 / 2))
  phase _ := Volume.isotropic
  camera _ := exCam
  junk := 0

noncomputable def exDayQ : Query := skyQ (faces exParts) (vertexAt exParts (fun _ => false) 0) 4

theorem exDayRoom (s : Skin) (L : Light) : Room (exDay s L) (indoors exDayQ) 3 exCam exParts (fun _ => false) 0 :=
  { exRoom with camera := rfl, cameraAt := rfl, traced := skyQ_indoors exParts_separate (fun _ _ => rfl) 4 }

theorem exDaySky : OpenSky exDayQ (faces exParts) 4 := skyQ_open exParts_separate fun f hf => by
  rw [exParts_faces] at hf
  rcases (by simpa using hf : f = (1, glowTri) ∨ f = (2, lampTri) ∨ f = (2, shadeTri)) with rfl | rfl | rfl <;> simp

theorem exDayDress {s : Skin} (hs : s.Sound (vertexAt exParts (fun _ => false) 0 2)) (L : Light) : Dress (exDay s L) exParts (fun _ => false) 0 (exSkin s) where
  material a ha := by
    rcases (by simpa [exParts] using ha : a = ⟨1, 1, glowTri⟩ ∨ a = ⟨2, 1, lampTri⟩ ∨ a = ⟨2, 1, shadeTri⟩) with rfl | rfl | rfl <;> rfl
  sound := (exDress hs).sound

theorem exDayLight (s : Skin) {L : Light} (hL : Heaven L) : Daylight (exDay s L) exParts 1 L (fun l => if l = 1 then 4 else 1) (fun _ => 1) (fun _ => false) 0 (fun _ => V3.all 1) (fun _ => [glowTri]) := by
  have hlen : (exDay s L).st.lights.length = 2 := rfl
  have h01 : ∀ l < (exDay s L).st.lights.length, l ≠ 1 → l = 0 := fun l hl hne => by rw [hlen] at hl; omega
  have hcase : ∀ l < (exDay s L).st.lights.length, l = 0 ∨ l = 1 := fun l hl => by rw [hlen] at hl; omega
  refine ⟨⟨by rw [hlen]; exact two_pos, fun l hl => ?_, fun l hl => ?_, fun l hl => ?_⟩, by rw [hlen]; exact one_lt_two, hL, fun l hl hne => exGlow_lamps.size 0 one_pos, fun l hl hne => exGlow_lamps.nonneg 0 one_pos, fun a ha L' hL' => ?_, fun l hl hne => ?_⟩
  · rcases hcase l hl with rfl | rfl <;> rfl
  · rcases hcase l hl with rfl | rfl <;> rfl
  · rcases hcase l hl with rfl | rfl <;> rfl
  · rcases (by simpa [exParts] using ha : a = ⟨1, 1, glowTri⟩ ∨ a = ⟨2, 1, lampTri⟩ ∨ a = ⟨2, 1, shadeTri⟩) with rfl | rfl | rfl
    · exact ⟨0, by rw [hlen]; exact two_pos, rfl⟩
    · have : (exDay s L).lightAt 2 = none := rfl
      rw [this] at hL'; cases hL'
    · have : (exDay s L).lightAt 2 = none := rfl
      rw [this] at hL'; cases hL'
  · rw [h01 l hl hne]; simp [exParts]

theorem exOutdoors {s : Skin} (hs : s.Sound (vertexAt exParts (fun _ => false) 0 2)) {L : Light} (hL : Heaven L) (i : Fin 3) (mode : Mode) (px : Bool) (N : ℕ) (dir : ℝ × ℝ → V3 ℝ) (hdir : ∀ q, primaryRay exCam q.1 q.2 = some (dir q)) (H : ℝ × ℝ → ℝ≥0∞)
    (hH : Measurable H) (u : RaySampleU) (uc : ℝ) (rs : ℕ → Rnd) : average (N - 1) 1 rs (fun rs' => measured i H (ptSample (exDay s L) exDayQ ⟨mode, px, N⟩ u uc rs')) =
      ∫⁻ q, H q * (optics (exDay s L) exDayQ i (compsOf (exSkin s))).incoming (N - 1) (camVertex (exDay s L) 3 exCam) (dir q) ∂uniform2 :=
  C82_outdoors (node := fun l => if l = 1 then 4 else 1) (l0 := 1) (exDayRoom s L) exDaySky (exDayDress hs L) (exDayLight s hL) i ⟨mode, px, N⟩ dir hdir H hH u uc rs

/-- Glass under a grey sky. -/
example (i : Fin 3) (mode : Mode) (px : Bool) (N : ℕ) (dir : ℝ × ℝ → V3 ℝ) (hdir : ∀ q, primaryRay exCam q.1 q.2 = some (dir q)) (H : ℝ × ℝ → ℝ≥0∞) (hH : Measurable H) (u : RaySampleU) (uc : ℝ) (rs : ℕ → Rnd) :
    average (N - 1) 1 rs (fun rs' => measured i H (ptSample (exDay (.glass (3 / 2)) (envconst (fun _ => false) 0 (V3.all (1 / 2)) 0 2)) exDayQ ⟨mode, px, N⟩ u uc rs')) =
      ∫⁻ q, H q * (optics (exDay (.glass (3 / 2)) (envconst (fun _ => false) 0 (V3.all (1 / 2)) 0 2)) exDayQ i (compsOf (exSkin (.glass (3 / 2))))).incoming (N - 1) (camVertex (exDay (.glass (3 / 2)) (envconst (fun _ => false) 0 (V3.all (1 / 2)) 0 2)) 3 exCam) (dir q) ∂uniform2 :=
  exOutdoors (by show (0 : ℝ) < 3 / 2; norm_num) (.const _ _ _ _ _ two_pos half_nonneg) i mode px N dir hdir H hH u uc rs

end LM.Transport
