import Verif.Model.Renderer
import Verif.Props.C46_Path
import Verif.Props.C50_Mis
/-
  C54: each light transport path is counted once by the path tracers.
  A path with nv + 1 vertices that ends on a light can be built in two ways from its first nv vertices: by sampling the light (next-event estimation) or by sampling a direction that hits it.
  "Counted once": summing, over the two ways, (density of the way) · (what the renderer adds to the film) gives throughput · scattering · emission.
-/
namespace LM.Render
open LM LM.Surface LM.Material LM.Light LM.Volume LM.Path

/-! ### Specification -/

/-- The total added to the film by a list of contributions. -/
def total (l : List Splat) : V3 ℝ := (l.map (·.C)).sum

/-- Materials built from the classes shipped with the framework. -/
inductive ShippedMat : Mat → Prop
  | diffuse (Kd : Geom → V3 ℝ) : ShippedMat (diffuse Kd)
  | glossy (Ks : V3 ℝ) (ax ay : ℝ) : ShippedMat (glossy Ks ax ay)
  | mirror : ShippedMat mirror
  | mask : ShippedMat mask
  | glass (Ni : ℝ) : ShippedMat (glass Ni)
  | proxy (m : Mat) : ShippedMat m → ShippedMat (proxy m)
  | mixtureRR (es : List Entry) : (∀ e ∈ es, ShippedMat e.1) → ShippedMat (mixtureRR es)
  | mixtureMarg (es : List Entry) : (∀ e ∈ es, ShippedMat e.1) → ShippedMat (mixtureMarg es)
  | obj (Kd : Geom → V3 ℝ) (Ks : V3 ℝ) (ax ay : ℝ) (alpha : Geom → ℝ) : ShippedMat (objMixture (Material.diffuse Kd) (Material.glossy Ks ax ay) alpha)

/-- Lights of the classes shipped with the framework. -/
inductive ShippedLight : Light → Prop
  | area (sgn : V3 ℝ → Bool) (junk Ke : V3 ℝ) (ts : List Tri) : ShippedLight (area sgn junk Ke ts)
  | point (Le position junk : V3 ℝ) : ShippedLight (point Le position junk)
  | directional (sgn : V3 ℝ → Bool) (junk Le direction c : V3 ℝ) (r : ℝ) : ShippedLight (directional sgn junk Le direction c r)
  | envconst (sgn : V3 ℝ → Bool) (junk Le c : V3 ℝ) (r : ℝ) : ShippedLight (envconst sgn junk Le c r)
  | env (sgn : V3 ℝ → Bool) (junk : V3 ℝ) (tex : ℝ → ℝ → V3 ℝ) (d2 : Dist.Dist2 ℝ) (rot : ℝ) (c : V3 ℝ) (r : ℝ) : ShippedLight (env sgn junk tex d2 rot c r)

/-- Scenes made of shipped materials and lights. -/
def Shipped (W : World) : Prop := (∀ i, ShippedMat (W.material i)) ∧ ∀ i, ShippedLight (W.light i)

/-! ### Non-specular components do not depend on eval_delta -/

theorem groups_zero (es : List Entry) : (groups es)[0]? = some (es.filter (fun e => ¬ e.1.isSpecular 0 = some true)) := by
  have key : ∀ (es : List Entry) (a : List Entry) (b : List (List Entry)), (es.foldl addEntry (a, b)).1 = a ++ es.filter (fun e => ¬ e.1.isSpecular 0 = some true) := by
    intro es
    induction es with
    | nil => intro a b; simp
    | cons e es ih =>
      intro a b
      by_cases h : e.1.isSpecular 0 = some true
      · rw [List.foldl_cons, List.filter_cons_of_neg (by simp [h])]
        rw [show addEntry (a, b) e = (a, b ++ [[e]]) from by simp [addEntry, h], ih]
      · rw [List.foldl_cons, List.filter_cons_of_pos (by simp [h])]
        rw [show addEntry (a, b) e = (a ++ [e], b) from by simp [addEntry, h], ih]
        simp
  unfold groups
  simp only [List.getElem?_cons_zero, key, List.nil_append]

theorem mapM_congr {α β : Type} (f g : α → Option β) : ∀ l : List α, (∀ a ∈ l, f a = g a) → l.mapM f = l.mapM g
  | [], _ => rfl
  | a :: l, h => by
    rw [List.mapM_cons, List.mapM_cons, h a (by simp), mapM_congr f g l (fun b hb => h b (List.mem_cons_of_mem _ hb))]

/-- C54. The "evaluate delta components" switch with which the path tracers evaluate scattering changes nothing at a component that is not specular, for every shipped material. -/
theorem C54_material_plain (m : Mat) (hm : ShippedMat m) : ∀ comp, m.isSpecular comp ≠ some true → ∀ g wi wo dir e,
    m.eval g wi wo comp dir e = m.eval g wi wo comp dir false ∧ m.pdfDirection g wi wo comp e = m.pdfDirection g wi wo comp false := by
  induction hm with
  | diffuse Kd => intros; exact ⟨rfl, rfl⟩
  | glossy => intros; exact ⟨rfl, rfl⟩
  | mirror => intro _ h; exact absurd rfl h
  | mask => intro _ h; exact absurd rfl h
  | glass => intro _ h; exact absurd rfl h
  | proxy m _ ih => intro c h g wi wo dir e; exact ih c h g wi wo dir e
  | mixtureRR es _ ih =>
    intro comp h g wi wo dir e
    simp only [mixtureRR] at h ⊢
    cases he : es[comp]? with
    | none => simp
    | some x =>
      have hx : x ∈ es := List.mem_of_getElem? he
      rw [he, Option.bind_some] at h
      simp only [Option.bind_some]
      rw [(ih x hx 0 h g wi wo dir e).1, (ih x hx 0 h g wi wo dir e).2]
      exact ⟨rfl, rfl⟩
  | mixtureMarg es _ ih =>
    intro comp h g wi wo dir e
    simp only [mixtureMarg] at h ⊢
    have : comp = 0 := by
      by_contra hc
      exact h (by simp [hc])
    subst this
    rw [groups_zero]
    simp only [Option.bind_some]
    have mem : ∀ x ∈ es.filter (fun e => ¬ e.1.isSpecular 0 = some true), x ∈ es ∧ x.1.isSpecular 0 ≠ some true := by
      intro x hx
      rw [List.mem_filter] at hx
      exact ⟨hx.1, by simpa using hx.2⟩
    constructor
    · unfold groupEval
      congr 1
      apply mapM_congr
      intro x hx
      obtain ⟨h1, h2⟩ := mem x hx
      rw [(ih x h1 0 h2 g wi wo dir e).1]
    · unfold groupPdf
      split
      · rfl
      · congr 1
        apply mapM_congr
        intro x hx
        obtain ⟨h1, h2⟩ := mem x.1 (List.fst_mem_of_mem_zipIdx hx)
        rw [(ih x.1 h1 0 h2 g wi wo dir e).2]
  | obj Kd Ks ax ay alpha =>
    intro comp h g wi wo dir e
    have : comp = 0 := by
      by_contra hc
      exact h (by simp [objMixture, hc])
    subst this
    exact ⟨rfl, rfl⟩

/-- C54. Likewise for the emission and the light sampling density of every shipped light that is not specular. -/
theorem C54_light_plain (L : Light) (hL : ShippedLight L) (h : L.isSpecular = false) (g gL : Geom) (M : Aff ℝ) (wo : V3 ℝ) (e : Bool) :
    L.eval gL wo e = L.eval gL wo false ∧ L.pdfDirect g gL M wo e = L.pdfDirect g gL M wo false := by
  cases hL <;> first | exact ⟨rfl, rfl⟩ | (simp [directional] at h)

theorem material_shipped (W : World) (hW : Shipped W) (i : Int) (m : Mat) (h : W.materialAt i = some m) : ShippedMat m := by
  simp only [World.materialAt, Option.bind_eq_some_iff, Option.map_eq_some_iff] at h
  obtain ⟨_, _, j, _, e⟩ := h
  exact e ▸ hW.1 j

theorem light_shipped (W : World) (hW : Shipped W) (i : Int) (L : Light) (h : W.lightAt i = some L) : ShippedLight L := by
  simp only [World.lightAt, Option.bind_eq_some_iff, Option.map_eq_some_iff] at h
  obtain ⟨_, _, j, _, e⟩ := h
  exact e ▸ hW.2 j

theorem vertex_plain (W : World) (hW : Shipped W) (sp : SI) (wi wo : V3 ℝ) (comp : ℕ) (dir : TransDir) (e : Bool) (h : isSpecularComponent W sp comp = some false) :
    evalContrbDirection W sp wi wo comp dir e = evalContrbDirection W sp wi wo comp dir false ∧ pdfDirection W sp wi wo comp e = pdfDirection W sp wi wo comp false := by
  unfold isSpecularComponent at h
  unfold evalContrbDirection pdfDirection
  cases hk : sp.kind with
  | camera => exact ⟨rfl, rfl⟩
  | medium => exact ⟨rfl, rfl⟩
  | light =>
    simp only [hk] at h ⊢
    cases hL : W.lightAt sp.primitive with
    | none => simp
    | some L =>
      rw [hL] at h
      simp only [Option.map_some, Option.some.injEq] at h
      simp only [(C54_light_plain L (light_shipped W hW _ L hL) h sp.geom sp.geom ⟨0, 0, 0, 0⟩ wo e).1, and_self]
  | surface =>
    simp only [hk] at h ⊢
    cases hm : W.materialAt sp.primitive with
    | none => simp
    | some m =>
      rw [hm, Option.bind_some] at h
      have := C54_material_plain m (material_shipped W hW _ m hm) comp (by rw [h]; simp) sp.geom wi wo dir e
      simp only [Option.bind_some, this.1, this.2, and_self]

theorem direct_plain (W : World) (hW : Shipped W) (sp spL : SI) (wo : V3 ℝ) (e : Bool) (hk : spL.kind = .light) (h : isSpecularComponent W spL 0 = some false) :
    pdfDirect W sp spL wo e = pdfDirect W sp spL wo false := by
  simp only [isSpecularComponent, hk, Option.map_eq_some_iff] at h
  obtain ⟨L, hL, hs⟩ := h
  simp only [pdfDirect, hk, pdfOnLight, hL, Option.bind_eq_bind, Option.bind_some]
  have : ∀ M, L.pdfDirect sp.geom spL.geom M wo e = L.pdfDirect sp.geom spL.geom M wo false := fun M => (C54_light_plain L (light_shipped W hW _ L hL) hs _ _ M wo e).2
  simp only [this]

/-! ### Counted once -/

/-- C54 (partial: the light vertex found by the two techniques is the same, i.e. its shading normal is the geometric one; see the negation below).
    Let the walk be at any vertex, and let a light sample and a direction sample at that vertex lead to the same point of a light that can be hit. With pL, pB the densities of the two samples, fs the
    scattering and Le the emission: pL · (what the light sample adds) + pB · (what the hit adds) = throughput · fs · Le, in every mode. Both add to the same position on the film. Missing: lights with interpolated normals (C54_negation_smooth_light). -/
theorem C54_once_partial (W : World) (hW : Shipped W) (Q : Query) (c : Cfg) (nv : ℕ) (st : St) (r : Rnd) (spL : SI) (woL wL wB : V3 ℝ) (hit : SI) (rp : ℝ × ℝ) (pL pB : ℝ) (Le fs : V3 ℝ) (b : Bool)
    (hspec : isSpecularComponent W st.sp st.comp = some b)
    -- the light sample and its density
    (hL : sampleDirect W r.light st.sp .LE = .ok spL woL wL) (hvis : Q.visible st.sp spL = true) (hdeg : spL.geom.degenerated = false) (hLs : isSpecularComponent W spL 0 = some false)
    (hpL : pdfDirect W st.sp spL woL false = some pL) (hLe : evalContrbDirection W spL 0 woL st.comp .LE false = some Le) (hpL0 : 0 < pL) (hwL : pL • wL = Le)
    -- the direction sample, its density and the light it hits
    (hpB : pdfDirection W st.sp st.wi (-woL) st.comp false = some pB) (hfs : evalContrbDirection W st.sp st.wi (-woL) st.comp .EL false = some fs) (hpB0 : 0 < pB) (hwB : pB • wB = fs)
    (hhit : isLight W hit = some true) (hsame : asLight hit = spL) (hrp : newRaster W nv st (-woL) = some rp) :
    ∃ l1 l2, ptNee W Q c nv st r = some l1 ∧ hitSplat W c nv st (-woL) (st.thr * wB) rp hit = some l2 ∧
      (∀ s ∈ l1 ++ l2, s.verts = nv + 1 ∧ s.rp = rp) ∧ pL • total l1 + pB • total l2 = st.thr * fs * Le := by
  have hkind : spL.kind = .light := by rw [← hsame]; rfl
  have hLe' : evalContrbDirection W spL 0 (- -woL) st.comp .LE true = some Le := by
    rw [neg_neg, (vertex_plain W hW spL 0 woL st.comp .LE true ?_).1, hLe]
    simpa [isSpecularComponent, hkind] using hLs
  have one : ∀ x : V3 ℝ, total [⟨.nee, nv + 1, rp, x⟩] = x := fun x => by simp [total]
  have one' : ∀ x : V3 ℝ, total [⟨.hit, nv + 1, rp, x⟩] = x := fun x => by simp [total]
  have none' : total [] = 0 := rfl
  have alone : pB • (st.thr * wB * Le) = st.thr * fs * Le := by
    rw [← hwB]; ext <;> simp <;> ring
  -- the hit without next-event estimation
  have hitAlone : byNee W c nv st = some false → hitSplat W c nv st (-woL) (st.thr * wB) rp hit = some [⟨.hit, nv + 1, rp, (1 : ℝ) • (st.thr * wB * Le)⟩] := by
    intro hb
    simp only [hitSplat, hb, Option.bind_eq_bind, Option.bind_some, hhit, hsame, hLe', hitWeight]
    simp
  by_cases hbn : byNee W c nv st = some false
  · refine ⟨[], _, by simp [ptNee, hbn], hitAlone hbn, by simp, ?_⟩
    rw [none', one', one_smul, smul_zero, zero_add, alone]
  · -- next-event estimation takes place
    have hb1 : byNee W c nv st = some true := by
      unfold byNee at hbn ⊢
      rw [hspec] at hbn ⊢
      split_ifs at hbn ⊢ <;> simp_all
    have hmode : c.mode ≠ .naive := by
      intro h; simp [byNee, h] at hb1
    have hbf : b = false := by
      unfold byNee at hb1
      rw [hspec, if_neg hmode] at hb1
      cases b <;> simp_all
    subst hbf
    have hpl := vertex_plain W hW st.sp st.wi (-woL) st.comp .EL true hspec
    have hrp' : (if nv = 1 then rasterAt W (-woL) else some (some st.rp)) = some (some rp) := by
      unfold newRaster at hrp
      split_ifs at hrp ⊢ with h1
      · cases hr : rasterAt W (-woL) with
        | none => simp [hr] at hrp
        | some x => simpa [hr] using hrp
      · rw [← hrp]
    have nee0 : ptNee W Q c nv st r = neeSplat W Q c nv st spL woL wL := by
      simp only [ptNee, hb1, Option.bind_eq_bind, Option.bind_some, hL]; simp
    have neeW : neeSplat W Q c nv st spL woL wL = if fs = 0 then some [] else (neeWeight W c st spL woL).map (fun w => [⟨.nee, nv + 1, rp, w • (st.thr * fs * wL)⟩]) := by
      have fin : (do
          let fs ← evalContrbDirection W st.sp st.wi (-woL) st.comp .EL true
          if fs = 0 then return []
          else
            let w ← neeWeight W c st spL woL
            return [(⟨.nee, nv + 1, rp, w • (st.thr * fs * wL)⟩ : Splat)]) =
          if fs = 0 then some [] else (neeWeight W c st spL woL).map (fun w => [⟨.nee, nv + 1, rp, w • (st.thr * fs * wL)⟩]) := by
        rw [hpl.1, hfs, Option.bind_eq_bind, Option.bind_some]
        split_ifs with h
        · rfl
        · cases neeWeight W c st spL woL <;> rfl
      by_cases h1 : nv = 1
      · simp only [if_pos h1] at hrp'
        simp only [neeSplat, hvis, if_pos h1, hrp', Option.bind_eq_bind, Option.bind_some, ← fin]
        simp
      · simp only [if_neg h1, Option.some.injEq] at hrp'
        simp only [neeSplat, hvis, if_neg h1, hrp', Option.bind_eq_bind, Option.bind_some, ← fin]
        simp
    have aloneL : pL • (st.thr * fs * wL) = st.thr * fs * Le := by
      rw [← hwL]; ext <;> simp <;> ring
    cases hm : c.mode with
    | naive => exact absurd hm hmode
    | nee =>
      have hh : hitSplat W c nv st (-woL) (st.thr * wB) rp hit = some [] := by
        simp only [hitSplat, hb1, Option.bind_eq_bind, Option.bind_some, hm]; simp
      by_cases hf : fs = 0
      · refine ⟨[], [], by rw [nee0, neeW, if_pos hf], hh, by simp, ?_⟩
        rw [none', hf]; ext <;> simp
      · refine ⟨_, [], by rw [nee0, neeW, if_neg hf, neeWeight, if_pos hm, Option.map_some], hh, by simp, ?_⟩
        rw [none', one, one_smul, aloneL, smul_zero, add_zero]
    | mis =>
      have hd' := direct_plain W hW st.sp spL woL true hkind hLs
      have hh : hitSplat W c nv st (-woL) (st.thr * wB) rp hit = some [⟨.hit, nv + 1, rp, MathF.balanceHeuristic pB pL • (st.thr * wB * Le)⟩] := by
        have : hitWeight W c true st (-woL) spL = some (MathF.balanceHeuristic pB pL) := by
          simp only [hitWeight, hm, hpl.2, hpB, neg_neg, hd', hpL, Option.bind_eq_bind, Option.bind_some]; simp
        simp only [hitSplat, hb1, Option.bind_eq_bind, Option.bind_some, hm, hhit, hsame, hLe', this]; simp
      have hw : neeWeight W c st spL woL = some (MathF.balanceHeuristic pL pB) := by
        simp only [neeWeight, hm, hLs, Option.bind_eq_bind, Option.bind_some, hdeg, hd', hpL, hpl.2, hpB]; simp
      by_cases hf : fs = 0
      · refine ⟨[], _, by rw [nee0, neeW, if_pos hf], hh, by simp, ?_⟩
        have hwB0 : wB = 0 := by
          rw [hf] at hwB
          rcases smul_eq_zero.mp hwB with h | h
          · exact absurd h hpB0.ne'
          · exact h
        rw [none', one', hf, hwB0]; ext <;> simp
      · refine ⟨_, _, by rw [nee0, neeW, if_neg hf, hw, Option.map_some], hh, by simp, ?_⟩
        rw [one, one', smul_comm, aloneL, smul_comm, alone, ← add_smul]
        have := ((MathF.C68_balance pL pB hpL0.le hpB0.le).2.1 (fun h => hpL0.ne' h.1)).1
        rw [this, one_smul]

/-! ### Paths only one technique can build -/

theorem nee_eq (W : World) (hW : Shipped W) (Q : Query) (c : Cfg) (nv : ℕ) (st : St) (r : Rnd) (spL : SI) (woL wL : V3 ℝ) (rp : ℝ × ℝ) (fs : V3 ℝ)
    (hnee : byNee W c nv st = some true) (hL : sampleDirect W r.light st.sp .LE = .ok spL woL wL) (hvis : Q.visible st.sp spL = true)
    (hfs : evalContrbDirection W st.sp st.wi (-woL) st.comp .EL false = some fs) (hrp : newRaster W nv st (-woL) = some rp) :
    isSpecularComponent W st.sp st.comp = some false ∧
    ptNee W Q c nv st r = if fs = 0 then some [] else (neeWeight W c st spL woL).map (fun w => [⟨.nee, nv + 1, rp, w • (st.thr * fs * wL)⟩]) := by
  have hspec : isSpecularComponent W st.sp st.comp = some false := by
    unfold byNee at hnee
    split_ifs at hnee with h1 h2
    · simp at hnee
    · obtain ⟨b, hb, e⟩ := Option.map_eq_some_iff.mp hnee
      rw [hb]; cases b <;> simp_all
    · obtain ⟨b, hb, e⟩ := Option.map_eq_some_iff.mp hnee
      rw [hb]; cases b <;> simp_all
  refine ⟨hspec, ?_⟩
  have hpl := vertex_plain W hW st.sp st.wi (-woL) st.comp .EL true hspec
  have nee0 : ptNee W Q c nv st r = neeSplat W Q c nv st spL woL wL := by
    simp only [ptNee, hnee, Option.bind_eq_bind, Option.bind_some, hL]; simp
  rw [nee0]
  have fin : (do
      let fs ← evalContrbDirection W st.sp st.wi (-woL) st.comp .EL true
      if fs = 0 then return []
      else
        let w ← neeWeight W c st spL woL
        return [(⟨.nee, nv + 1, rp, w • (st.thr * fs * wL)⟩ : Splat)]) =
      if fs = 0 then some [] else (neeWeight W c st spL woL).map (fun w => [⟨.nee, nv + 1, rp, w • (st.thr * fs * wL)⟩]) := by
    rw [hpl.1, hfs, Option.bind_eq_bind, Option.bind_some]
    split_ifs with h
    · rfl
    · cases neeWeight W c st spL woL <;> rfl
  by_cases h1 : nv = 1
  · have hr : rasterAt W (-woL) = some (some rp) := by
      unfold newRaster at hrp
      rw [if_pos h1] at hrp
      cases hr : rasterAt W (-woL) with
      | none => simp [hr] at hrp
      | some x => simpa [hr] using hrp
    simp only [neeSplat, hvis, if_pos h1, hr, Option.bind_eq_bind, Option.bind_some, ← fin]
    simp
  · have hr : st.rp = rp := by
      unfold newRaster at hrp
      rw [if_neg h1] at hrp
      simpa using hrp
    simp only [neeSplat, hvis, if_neg h1, hr, Option.bind_eq_bind, Option.bind_some, ← fin]
    simp

/-- C54. A path that ends on a light no direction sample can reach (a point light, a directional light), or whose last direction the scattering function cannot sample (density 0), is counted in full by
    next-event estimation, in every mode that uses it: density · contribution = throughput · fs · Le. -/
theorem C54_light_sample_alone (W : World) (hW : Shipped W) (Q : Query) (c : Cfg) (nv : ℕ) (st : St) (r : Rnd) (spL : SI) (woL wL : V3 ℝ) (rp : ℝ × ℝ) (pL pB : ℝ) (Le fs : V3 ℝ) (b : Bool)
    (hnee : byNee W c nv st = some true)
    (hL : sampleDirect W r.light st.sp .LE = .ok spL woL wL) (hk : spL.kind = .light) (hvis : Q.visible st.sp spL = true) (hLs : isSpecularComponent W spL 0 = some b)
    (hpL : pdfDirect W st.sp spL woL false = some pL) (hpL0 : 0 < pL) (hwL : pL • wL = Le)
    (hpB : pdfDirection W st.sp st.wi (-woL) st.comp false = some pB) (hfs : evalContrbDirection W st.sp st.wi (-woL) st.comp .EL false = some fs)
    (hrp : newRaster W nv st (-woL) = some rp) (halone : b = true ∨ spL.geom.degenerated = true ∨ pB = 0) :
    ∃ l, ptNee W Q c nv st r = some l ∧ (∀ s ∈ l, s.verts = nv + 1 ∧ s.rp = rp) ∧ pL • total l = st.thr * fs * Le := by
  obtain ⟨hspec, e⟩ := nee_eq W hW Q c nv st r spL woL wL rp fs hnee hL hvis hfs hrp
  have hpl := vertex_plain W hW st.sp st.wi (-woL) st.comp .EL true hspec
  by_cases hf : fs = 0
  · refine ⟨[], by rw [e, if_pos hf], by simp, ?_⟩
    rw [hf]; ext <;> simp [total]
  · have hw : neeWeight W c st spL woL = some 1 := by
      unfold neeWeight
      split_ifs with h1
      · rfl
      · rw [hLs]
        simp only [Option.bind_eq_bind, Option.bind_some]
        by_cases h2 : (b || spL.geom.degenerated) = true
        · rw [if_pos h2]; rfl
        · have hb : b = false := by cases b <;> simp_all
          have hz : pB = 0 := by
            rcases halone with h | h | h
            · simp_all
            · simp_all
            · exact h
          subst hb
          rw [if_neg h2, direct_plain W hW st.sp spL woL true hk hLs, hpL, hpl.2, hpB]
          simp only [Option.bind_some, hz, MathF.balanceHeuristic]
          rw [if_neg (fun h => hpL0.ne' h.1), add_zero, div_self hpL0.ne']
          rfl
    refine ⟨_, by rw [e, if_neg hf, hw, Option.map_some], by simp, ?_⟩
    rw [← hwL]
    ext <;> simp [total] <;> ring

/-- C54. A hit that next-event estimation does not consider (naive mode, specular vertex, first vertex in pixel mode), or in the combined mode one whose light sample has density 0, is counted in full:
    density · contribution = throughput · fs · Le. The emission Le is the one evaluated by the renderer; for lights that can be hit it does not depend on the switch (`C54_light_plain`). -/
theorem C54_hit_alone (W : World) (hW : Shipped W) (c : Cfg) (nv : ℕ) (st : St) (wo wB : V3 ℝ) (hit : SI) (rp : ℝ × ℝ) (pL pB : ℝ) (Le fs : V3 ℝ) (b nee : Bool)
    (hspec : isSpecularComponent W st.sp st.comp = some b) (hnee : byNee W c nv st = some nee) (hLs : isSpecularComponent W (asLight hit) 0 = some false)
    (hpB : pdfDirection W st.sp st.wi wo st.comp false = some pB) (hpB0 : 0 < pB) (hwB : pB • wB = fs)
    (hhit : isLight W hit = some true) (hLe : evalContrbDirection W (asLight hit) 0 (-wo) st.comp .LE false = some Le)
    (hpL : pdfDirect W st.sp (asLight hit) (-wo) false = some pL)
    (halone : nee = false ∨ (c.mode = .mis ∧ pL = 0)) :
    ∃ l, hitSplat W c nv st wo (st.thr * wB) rp hit = some l ∧ (∀ s ∈ l, s.verts = nv + 1 ∧ s.rp = rp) ∧ pB • total l = st.thr * fs * Le := by
  have hLe' : evalContrbDirection W (asLight hit) 0 (-wo) st.comp .LE true = some Le := by
    rw [(vertex_plain W hW (asLight hit) 0 (-wo) st.comp .LE true (by simpa [isSpecularComponent, asLight] using hLs)).1, hLe]
  have hw : hitWeight W c nee st wo (asLight hit) = some 1 := by
    rcases halone with h | ⟨h1, h2⟩
    · simp [hitWeight, h]
    · cases nee with
      | false => simp [hitWeight]
      | true =>
        have hbf : b = false := by
          unfold byNee at hnee
          rw [hspec, if_neg (by rw [h1]; simp)] at hnee
          cases b <;> simp_all
        subst hbf
        have hpl := vertex_plain W hW st.sp st.wi wo st.comp .EL true hspec
        simp only [hitWeight, h1, hpl.2, hpB, direct_plain W hW st.sp (asLight hit) (-wo) true rfl hLs, hpL, Option.bind_eq_bind, Option.bind_some, h2, MathF.balanceHeuristic]
        rw [if_neg (by simp), if_neg (by simp), if_neg (fun h => hpB0.ne' h.1), add_zero, div_self hpB0.ne']
        rfl
  have hcond : ¬ (c.mode = .nee ∧ nee = true) := by
    rcases halone with h | ⟨h1, _⟩
    · simp [h]
    · simp [h1]
  refine ⟨[⟨.hit, nv + 1, rp, (1 : ℝ) • (st.thr * wB * Le)⟩], ?_, by simp, ?_⟩
  · simp only [hitSplat, hnee, Option.bind_eq_bind, Option.bind_some, if_neg hcond, hhit, hLe', hw]
    simp
  · rw [← hwB]
    ext <;> simp [total] <;> ring

/-! ### Whole samples -/

theorem walk_verts (W : World) (rr : ℕ → V3 ℝ → ℝ → Option (Option (V3 ℝ))) (body : ℕ → St → Rnd → Option (List Splat × Option Hop)) (rs : ℕ → Rnd) {κ : Type} (key : Splat → κ)
    (hkey : ∀ s s' : Splat, key s = key s' → s.verts = s'.verts)
    (hbody : ∀ nv st r out h, body nv st r = some (out, h) → (∀ s ∈ out, s.verts = nv + 1) ∧ (out.map key).Nodup) :
    ∀ k nv st l, walk W rr body rs k nv st = some l → (∀ s ∈ l, nv + 1 ≤ s.verts ∧ s.verts ≤ nv + k) ∧ (l.map key).Nodup := by
  intro k
  induction k with
  | zero => intro nv st l h; cases h; simp
  | succ k ih =>
    intro nv st l h
    unfold walk at h
    split at h
    · cases h
    · next out hb =>
      cases h
      obtain ⟨h1, h2⟩ := hbody _ _ _ _ _ hb
      exact ⟨fun s hs => by rw [h1 s hs]; omega, h2⟩
    · next out hp hb =>
      obtain ⟨h1, h2⟩ := hbody _ _ _ _ _ hb
      split at h
      · cases h
      · cases h
        exact ⟨fun s hs => by rw [h1 s hs]; omega, h2⟩
      · obtain ⟨rest, hr, e⟩ := Option.map_eq_some_iff.mp h
        subst e
        obtain ⟨g1, g2⟩ := ih _ _ _ hr
        constructor
        · intro s hs
          rcases List.mem_append.mp hs with hs | hs
          · rw [h1 s hs]; omega
          · have := g1 s hs; omega
        · rw [List.map_append, List.nodup_append]
          refine ⟨h2, g2, ?_⟩
          intro a ha b hb' hab
          obtain ⟨s, hs, rfl⟩ := List.mem_map.mp ha
          obtain ⟨s', hs', rfl⟩ := List.mem_map.mp hb'
          have := hkey s s' hab
          rw [h1 s hs] at this
          have := (g1 s' hs').1
          omega

/-- At most one contribution, of technique `t`, to a path with n vertices. -/
def AtMostOne (t : Tech) (n : ℕ) (l : List Splat) : Prop := l = [] ∨ ∃ rp C, l = [⟨t, n, rp, C⟩]

theorem neeSplat_one (W : World) (Q : Query) (c : Cfg) (nv : ℕ) (st : St) (spL : SI) (woL wL : V3 ℝ) (l : List Splat) (h : neeSplat W Q c nv st spL woL wL = some l) : AtMostOne .nee (nv + 1) l := by
  unfold neeSplat at h
  split at h
  · cases h; exact Or.inl rfl
  · dsimp only at h
    split_ifs at h
    all_goals
      obtain ⟨rp, _, h⟩ := bind_some h
      cases rp with
      | none => cases h; exact Or.inl rfl
      | some rp =>
        obtain ⟨fs, _, h⟩ := bind_some h
        split_ifs at h
        · cases h; exact Or.inl rfl
        · obtain ⟨w, _, h⟩ := bind_some h
          cases h; exact Or.inr ⟨_, _, rfl⟩

theorem ptNee_one (W : World) (Q : Query) (c : Cfg) (nv : ℕ) (st : St) (r : Rnd) (l : List Splat) (h : ptNee W Q c nv st r = some l) :
    AtMostOne .nee (nv + 1) l ∧ ((byNee W c nv st = some false ∨ c.mode = .naive) → l = []) := by
  unfold ptNee at h
  obtain ⟨b, hb, h⟩ := bind_some h
  cases b with
  | false => 
    simp at h
    subst h
    exact ⟨Or.inl rfl, fun _ => rfl⟩
  | true =>
    rw [if_pos rfl] at h
    refine ⟨?_, fun hn => ?_⟩
    · split at h
      · cases h
      · cases h; exact Or.inl rfl
      · exact neeSplat_one _ _ _ _ _ _ _ _ _ h
    · rcases hn with hn | hn
      · rw [hb] at hn; simp at hn
      · simp [byNee, hn] at hb

theorem hitSplat_one (W : World) (c : Cfg) (nv : ℕ) (st : St) (wo thr : V3 ℝ) (rp : ℝ × ℝ) (hit : SI) (l : List Splat) (h : hitSplat W c nv st wo thr rp hit = some l) :
    AtMostOne .hit (nv + 1) l ∧ (byNee W c nv st = some true → c.mode = .nee → l = []) := by
  unfold hitSplat at h
  obtain ⟨b, hb, h⟩ := bind_some h
  split_ifs at h with hc
  · cases h; exact ⟨Or.inl rfl, fun _ _ => rfl⟩
  · refine ⟨?_, fun h1 h2 => absurd ⟨h2, by rw [hb] at h1; simpa using h1⟩ hc⟩
    obtain ⟨b, _, h⟩ := bind_some h
    cases b with
    | false => simp at h; subst h; exact Or.inl rfl
    | true =>
      rw [if_pos rfl] at h
      obtain ⟨fs, _, h⟩ := bind_some h
      obtain ⟨w, _, h⟩ := bind_some h
      cases h; exact Or.inr ⟨_, _, rfl⟩

theorem byNee_hit (W : World) (c : Cfg) (nv : ℕ) (st : St) (wo thr : V3 ℝ) (rp : ℝ × ℝ) (hit : SI) (l : List Splat) (h : hitSplat W c nv st wo thr rp hit = some l) :
    ∃ b, byNee W c nv st = some b := by
  unfold hitSplat at h
  obtain ⟨b, hb, _⟩ := bind_some h
  exact ⟨b, hb⟩

/-- The contributions of one iteration are those of the light sample followed by those of the hit. -/
theorem ptBody_split (W : World) (Q : Query) (c : Cfg) (nv : ℕ) (st : St) (r : Rnd) (out : List Splat) (h : Option Hop) (hb : ptBody W Q c nv st r = some (out, h)) :
    ∃ a b, out = a ++ b ∧ ptNee W Q c nv st r = some a ∧ (b = [] ∨ ∃ wo thr rp hit, hitSplat W c nv st wo thr rp hit = some b) := by
  unfold ptBody at hb
  obtain ⟨a, ha, hb⟩ := bind_some hb
  split at hb
  · cases hb
  · cases hb; exact ⟨out, [], by simp, ha, Or.inl rfl⟩
  · obtain ⟨rp, _, hb⟩ := bind_some hb
    split at hb
    · cases hb; exact ⟨out, [], by simp, ha, Or.inl rfl⟩
    · obtain ⟨b, hb1, hb⟩ := bind_some hb
      cases hb
      exact ⟨a, b, rfl, ha, Or.inr ⟨_, _, _, _, hb1⟩⟩

/-- C54. Whatever the scene and the random numbers, one sample of the path tracer contributes only to paths of 2 to max_verts vertices, to each length at most once per technique; in naive mode every
    contribution is a hit, and in the naive and next-event estimation modes each length is contributed to at most once. -/
theorem C54_sample (W : World) (Q : Query) (c : Cfg) (u : RaySampleU) (uc : ℝ) (rs : ℕ → Rnd) (l : List Splat) (h : ptSample W Q c u uc rs = some l) :
    (∀ s ∈ l, 2 ≤ s.verts ∧ s.verts ≤ c.maxVerts) ∧ (l.map (fun s => (s.tech, s.verts))).Nodup ∧ (c.mode = .naive → ∀ s ∈ l, s.tech = .hit) ∧
    (c.mode ≠ .mis → (l.map (·.verts)).Nodup) := by
  unfold ptSample at h
  obtain ⟨st, _, h⟩ := bind_some h
  have body : ∀ nv st r out hp, ptBody W Q c nv st r = some (out, hp) → (∀ s ∈ out, s.verts = nv + 1) ∧ (out.map (fun s => (s.tech, s.verts))).Nodup ∧
      (c.mode = .naive → ∀ s ∈ out, s.tech = .hit) ∧ (c.mode ≠ .mis → (out.map (·.verts)).Nodup) := by
    intro nv st r out hp hb
    obtain ⟨a, b, e, ha, hb⟩ := ptBody_split W Q c nv st r out hp hb
    obtain ⟨ha1, ha2⟩ := ptNee_one W Q c nv st r a ha
    have hbo : AtMostOne .hit (nv + 1) b := by
      rcases hb with hb | ⟨wo, thr, rp, hit, hb⟩
      · exact Or.inl hb
      · exact (hitSplat_one _ _ _ _ _ _ _ _ _ hb).1
    have excl : c.mode ≠ .mis → a = [] ∨ b = [] := by
      intro hm
      rcases hb with hb | ⟨wo, thr, rp, hit, hb⟩
      · exact Or.inr hb
      · obtain ⟨x, hx⟩ := byNee_hit _ _ _ _ _ _ _ _ _ hb
        cases x with
        | false => exact Or.inl (ha2 (Or.inl hx))
        | true =>
          cases hmm : c.mode with
          | naive => exact Or.inl (ha2 (Or.inr hmm))
          | nee => exact Or.inr ((hitSplat_one _ _ _ _ _ _ _ _ _ hb).2 hx hmm)
          | mis => exact absurd hmm hm
    subst e
    rcases ha1 with rfl | ⟨rp, C, rfl⟩ <;> rcases hbo with rfl | ⟨rp', C', rfl⟩
    · simp
    · simp
    · refine ⟨by simp, by simp, fun hn => absurd (ha2 (Or.inr hn)) (by simp), by simp⟩
    · refine ⟨by simp, by simp, fun hn => absurd (ha2 (Or.inr hn)) (by simp), fun hm => ?_⟩
      rcases excl hm with h | h <;> simp at h
  have main := walk_verts W _ (ptBody W Q c) rs (fun s => (s.tech, s.verts)) (fun s s' h => (Prod.mk.inj h).2) (fun nv st r out hp hb => ⟨(body nv st r out hp hb).1, (body nv st r out hp hb).2.1⟩) _ _ _ _ h
  refine ⟨fun s hs => ?_, main.2, fun hn => ?_, fun hm => ?_⟩
  · have := main.1 s hs
    omega
  · have key : ∀ k nv st l, walk W (rouletteAt (2 / 10)) (ptBody W Q c) rs k nv st = some l → ∀ s ∈ l, s.tech = .hit := by
      intro k
      induction k with
      | zero => intro nv st l h; cases h; simp
      | succ k ih =>
        intro nv st l h
        unfold walk at h
        split at h
        · cases h
        · next out hb => cases h; exact (body _ _ _ _ _ hb).2.2.1 hn
        · next out hp hb =>
          split at h
          · cases h
          · cases h; exact (body _ _ _ _ _ hb).2.2.1 hn
          · obtain ⟨rest, hr, e⟩ := Option.map_eq_some_iff.mp h
            subst e
            intro s hs
            rcases List.mem_append.mp hs with hs | hs
            · exact (body _ _ _ _ _ hb).2.2.1 hn s hs
            · exact ih _ _ _ hr s hs
    exact key _ _ _ _ h
  · exact (walk_verts W _ (ptBody W Q c) rs (·.verts) (fun s s' h => h) (fun nv st r out hp hb => ⟨(body nv st r out hp hb).1, (body nv st r out hp hb).2.2.2 hm⟩) _ _ _ _ h).2

/-- C54. Volumetric path tracing: each length from 2 to max_verts is contributed to at most once per sample. -/
theorem C54_volpt_sample (W : World) (Q : VQuery) (naive : Bool) (rrProb : ℝ) (maxVerts : ℕ) (u : RaySampleU) (uc : ℝ) (rs : ℕ → Rnd) (l : List Splat)
    (h : volSample W Q naive rrProb maxVerts u uc rs = some l) : (∀ s ∈ l, 2 ≤ s.verts ∧ s.verts ≤ maxVerts) ∧ (l.map (·.verts)).Nodup := by
  unfold volSample at h
  obtain ⟨st, _, h⟩ := bind_some h
  have main := walk_verts W _ (volBody W Q naive) rs (·.verts) (fun s s' h => h) ?_ _ _ _ _ h
  · refine ⟨fun s hs => ?_, main.2⟩
    have := main.1 s hs
    omega
  · intro nv st r out hp hb
    unfold volBody at hb
    obtain ⟨a, ha, hb⟩ := bind_some hb
    have hnee : AtMostOne .nee (nv + 1) a ∧ (volByNee W naive nv st = some false → a = []) := by
      unfold volNee at ha
      obtain ⟨b, hb', ha⟩ := bind_some ha
      cases b with
      | false => simp at ha; subst ha; exact ⟨Or.inl rfl, fun _ => rfl⟩
      | true =>
        rw [if_pos rfl] at ha
        refine ⟨?_, fun hx => by rw [hb'] at hx; simp at hx⟩
        split at ha
        · cases ha
        · cases ha; exact Or.inl rfl
        · dsimp only at ha
          split_ifs at ha
          all_goals
            obtain ⟨rp, _, ha⟩ := bind_some ha
            cases rp with
            | none => cases ha; exact Or.inl rfl
            | some rp =>
              obtain ⟨tr, _, ha⟩ := bind_some ha
              split_ifs at ha
              · cases ha; exact Or.inl rfl
              · obtain ⟨fs, _, ha⟩ := bind_some ha
                split_ifs at ha
                · cases ha; exact Or.inl rfl
                · cases ha; exact Or.inr ⟨_, _, rfl⟩
    have only : ∀ l, AtMostOne .nee (nv + 1) l ∨ AtMostOne .hit (nv + 1) l → (∀ s ∈ l, s.verts = nv + 1) ∧ (l.map (·.verts)).Nodup := by
      rintro l ((rfl | ⟨_, _, rfl⟩) | (rfl | ⟨_, _, rfl⟩)) <;> simp
    split at hb
    · cases hb
    · cases hb; exact only _ (Or.inl hnee.1)
    · obtain ⟨rp, _, hb⟩ := bind_some hb
      split at hb
      · cases hb
      · cases hb; exact only _ (Or.inl hnee.1)
      · obtain ⟨b, hb1, hb⟩ := bind_some hb
        cases hb
        unfold volHit at hb1
        obtain ⟨x, hx, hb1⟩ := bind_some hb1
        cases x with
        | true =>
          rw [if_pos rfl] at hb1; cases hb1
          rw [List.append_nil]; exact only _ (Or.inl hnee.1)
        | false =>
          rw [hnee.2 hx, List.nil_append]
          simp only [Bool.false_eq_true, if_false] at hb1
          obtain ⟨y, _, hb1⟩ := bind_some hb1
          cases y with
          | false => simp at hb1; subst hb1; simp
          | true =>
            rw [if_pos rfl] at hb1
            obtain ⟨Le, _, hb1⟩ := bind_some hb1
            cases hb1; simp

/-- What holds of the contributions of each iteration holds of those of the walk. -/
theorem walk_all (W : World) (rr : ℕ → V3 ℝ → ℝ → Option (Option (V3 ℝ))) (body : ℕ → St → Rnd → Option (List Splat × Option Hop)) (rs : ℕ → Rnd) (P : Splat → Prop)
    (hbody : ∀ nv st r out h, 1 ≤ nv → body nv st r = some (out, h) → ∀ s ∈ out, P s) :
    ∀ k nv st l, 1 ≤ nv → walk W rr body rs k nv st = some l → ∀ s ∈ l, P s := by
  intro k
  induction k with
  | zero => intro nv st l _ h; cases h; simp
  | succ k ih =>
    intro nv st l h1 h
    unfold walk at h
    split at h
    · cases h
    · next out hb => cases h; exact hbody _ _ _ _ _ h1 hb
    · next out hp hb =>
      split at h
      · cases h
      · cases h; exact hbody _ _ _ _ _ h1 hb
      · obtain ⟨rest, hr, e⟩ := Option.map_eq_some_iff.mp h
        subst e
        intro s hs
        rcases List.mem_append.mp hs with hs | hs
        · exact hbody _ _ _ _ _ h1 hb s hs
        · exact ih _ _ _ (by omega) hr s hs

theorem volNee_tech (W : World) (Q : VQuery) (naive : Bool) (nv : ℕ) (st : St) (r : Rnd) (a : List Splat) (h1 : 1 ≤ nv) (ha : volNee W Q naive nv st r = some a) :
    (naive = true → a = []) ∧ ∀ s ∈ a, s.tech = .nee ∧ 3 ≤ s.verts := by
  unfold volNee at ha
  obtain ⟨b, hb', ha⟩ := bind_some ha
  unfold volByNee at hb'
  cases naive with
  | true => rw [if_pos rfl] at hb'; cases hb'; simp at ha; subst ha; simp
  | false =>
    refine ⟨fun h => absurd h (by simp), ?_⟩
    simp only [Bool.false_eq_true, if_false] at hb'
    by_cases hn : nv > 1
    · cases b with
      | false => simp at ha; subst ha; simp
      | true =>
        rw [if_pos rfl] at ha
        have one : ∀ rp C, ∀ s ∈ [(⟨.nee, nv + 1, rp, C⟩ : Splat)], s.tech = .nee ∧ 3 ≤ s.verts := by
          intro rp C s hs
          rw [List.mem_singleton] at hs
          subst hs
          exact ⟨rfl, by show 3 ≤ nv + 1; omega⟩
        split at ha
        · cases ha
        · cases ha; simp
        · dsimp only at ha
          split_ifs at ha
          all_goals
            obtain ⟨rp, _, ha⟩ := bind_some ha
            cases rp with
            | none => cases ha; simp
            | some rp =>
              obtain ⟨tr, _, ha⟩ := bind_some ha
              split_ifs at ha
              · cases ha; simp
              · obtain ⟨fs, _, ha⟩ := bind_some ha
                split_ifs at ha
                · cases ha; simp
                · cases ha; exact one _ _
    · rw [if_neg hn] at hb'; cases hb'; simp at ha; subst ha; simp

/-- C54. The techniques of volumetric path tracing: the naive renderer contributes only when it hits a light, and next event estimation starts at the second vertex (lights seen directly are hit). -/
theorem C54_volpt_techniques (W : World) (Q : VQuery) (naive : Bool) (rrProb : ℝ) (maxVerts : ℕ) (u : RaySampleU) (uc : ℝ) (rs : ℕ → Rnd) (l : List Splat)
    (h : volSample W Q naive rrProb maxVerts u uc rs = some l) : (naive = true → ∀ s ∈ l, s.tech = .hit) ∧ (∀ s ∈ l, s.tech = .nee → 3 ≤ s.verts) := by
  unfold volSample at h
  obtain ⟨st, _, h⟩ := bind_some h
  have key := walk_all W _ (volBody W Q naive) rs (fun s => (naive = true → s.tech = .hit) ∧ (s.tech = .nee → 3 ≤ s.verts)) ?_ _ _ _ _ (le_refl 1) h
  · exact ⟨fun hn s hs => (key s hs).1 hn, fun s hs => (key s hs).2⟩
  intro nv st r out hp h1 hb
  unfold volBody at hb
  obtain ⟨a, ha, hb⟩ := bind_some hb
  obtain ⟨e1, e2⟩ := volNee_tech W Q naive nv st r a h1 ha
  have hA : ∀ s ∈ a, (naive = true → s.tech = .hit) ∧ (s.tech = .nee → 3 ≤ s.verts) :=
    fun s hs => ⟨fun hn => absurd hs (by rw [e1 hn]; simp), fun _ => (e2 s hs).2⟩
  split at hb
  · cases hb
  · cases hb; exact hA
  · obtain ⟨rp, _, hb⟩ := bind_some hb
    split at hb
    · cases hb
    · cases hb; exact hA
    · obtain ⟨b, hb1, hb⟩ := bind_some hb
      cases hb
      intro s hs
      rcases List.mem_append.mp hs with hs | hs
      · exact hA s hs
      · unfold volHit at hb1
        obtain ⟨x, hx, hb1⟩ := bind_some hb1
        cases x with
        | true => rw [if_pos rfl] at hb1; cases hb1; cases hs
        | false =>
          simp only [Bool.false_eq_true, if_false] at hb1
          obtain ⟨y, _, hb1⟩ := bind_some hb1
          cases y with
          | false => simp at hb1; subst hb1; cases hs
          | true =>
            rw [if_pos rfl] at hb1
            obtain ⟨Le, _, hb1⟩ := bind_some hb1
            cases hb1
            rw [List.mem_singleton] at hs
            subst hs
            exact ⟨fun _ => rfl, fun h => by cases h⟩

/-- C54. Light tracing: each length from 3 to max_verts is contributed to at most once per sample, always by connecting to the camera. Paths of 2 vertices (a light seen directly) are never contributed to. -/
theorem C54_lt_sample (W : World) (Q : Query) (maxVerts : ℕ) (u : RaySampleU) (uc : ℝ) (rs : ℕ → Rnd) (l : List Splat)
    (h : ltSample W Q maxVerts u uc rs = some l) : (∀ s ∈ l, 3 ≤ s.verts ∧ s.verts ≤ maxVerts) ∧ (l.map (·.verts)).Nodup := by
  unfold ltSample at h
  split at h
  · split at h
    · cases h; simp
    · split_ifs at h
      · cases h; simp
      · obtain ⟨x, _, h⟩ := bind_some h
        have main := walk_verts W _ (ltBody W Q) rs (·.verts) (fun s s' h => h) ?_ _ _ _ _ h
        · refine ⟨fun s hs => ?_, main.2⟩
          have := main.1 s hs
          omega
        · intro nv st r out hp hb
          unfold ltBody at hb
          obtain ⟨a, ha, hb⟩ := bind_some hb
          have hnee : AtMostOne .nee (nv + 1) a := by
            unfold ltNee at ha
            split at ha
            · cases ha
            · cases ha; exact Or.inl rfl
            · split at ha
              · cases ha; exact Or.inl rfl
              · obtain ⟨rp, _, ha⟩ := bind_some ha
                cases rp with
                | none => cases ha; exact Or.inl rfl
                | some rp =>
                  obtain ⟨fs, _, ha⟩ := bind_some ha
                  cases ha; exact Or.inr ⟨_, _, rfl⟩
          have only : (∀ s ∈ a, s.verts = nv + 1) ∧ (a.map (·.verts)).Nodup := by
            rcases hnee with rfl | ⟨_, _, rfl⟩ <;> simp
          split at hb
          · cases hb
          · cases hb; exact only
          · split at hb
            · cases hb; exact only
            · cases hb; exact only
  · cases h

/-! ### Where a path is not counted once -/

/-- In the combined mode the two techniques weigh the path by the densities of the light vertices they themselves found. -/
theorem mis_total (W : World) (hW : Shipped W) (Q : Query) (c : Cfg) (nv : ℕ) (st : St) (r : Rnd) (spL : SI) (woL wL wB : V3 ℝ) (hit : SI) (rp : ℝ × ℝ) (pL pL' pB : ℝ) (Le fs : V3 ℝ)
    (hm : c.mode = .mis) (hnee : byNee W c nv st = some true)
    (hL : sampleDirect W r.light st.sp .LE = .ok spL woL wL) (hk : spL.kind = .light) (hvis : Q.visible st.sp spL = true) (hdeg : spL.geom.degenerated = false)
    (hLs : isSpecularComponent W spL 0 = some false) (hpL : pdfDirect W st.sp spL woL false = some pL) (hpL0 : 0 < pL) (hwL : pL • wL = Le)
    (hpB : pdfDirection W st.sp st.wi (-woL) st.comp false = some pB) (hfs : evalContrbDirection W st.sp st.wi (-woL) st.comp .EL false = some fs) (hpB0 : 0 < pB) (hwB : pB • wB = fs) (hf : fs ≠ 0)
    (hhit : isLight W hit = some true) (hLs' : isSpecularComponent W (asLight hit) 0 = some false) (hLe : evalContrbDirection W (asLight hit) 0 woL st.comp .LE false = some Le)
    (hpL' : pdfDirect W st.sp (asLight hit) woL false = some pL') (hpL0' : 0 < pL') (hrp : newRaster W nv st (-woL) = some rp) :
    ∃ l1 l2, ptNee W Q c nv st r = some l1 ∧ hitSplat W c nv st (-woL) (st.thr * wB) rp hit = some l2 ∧
      pL • total l1 + pB • total l2 = (pL / (pL + pB) + pB / (pB + pL')) • (st.thr * fs * Le) := by
  obtain ⟨hspec, e⟩ := nee_eq W hW Q c nv st r spL woL wL rp fs hnee hL hvis hfs hrp
  have hpl := vertex_plain W hW st.sp st.wi (-woL) st.comp .EL true hspec
  have hw : neeWeight W c st spL woL = some (pL / (pL + pB)) := by
    simp only [neeWeight, hm, hLs, Option.bind_eq_bind, Option.bind_some, hdeg, direct_plain W hW st.sp spL woL true hk hLs, hpL, hpl.2, hpB, MathF.balanceHeuristic]
    simp [hpL0.ne']
  have hLe' : evalContrbDirection W (asLight hit) 0 woL st.comp .LE true = some Le := by
    rw [(vertex_plain W hW (asLight hit) 0 woL st.comp .LE true (by simpa [isSpecularComponent, asLight] using hLs')).1, hLe]
  have hw' : hitWeight W c true st (-woL) (asLight hit) = some (pB / (pB + pL')) := by
    simp only [hitWeight, hm, hpl.2, hpB, neg_neg, direct_plain W hW st.sp (asLight hit) woL true rfl hLs', hpL', Option.bind_eq_bind, Option.bind_some, MathF.balanceHeuristic]
    simp [hpB0.ne']
  refine ⟨[⟨.nee, nv + 1, rp, (pL / (pL + pB)) • (st.thr * fs * wL)⟩], [⟨.hit, nv + 1, rp, (pB / (pB + pL')) • (st.thr * wB * Le)⟩], by rw [e, if_neg hf, hw, Option.map_some], ?_, ?_⟩
  · simp only [hitSplat, hnee, Option.bind_eq_bind, Option.bind_some, hm, hhit, neg_neg, hLe', hw']
    simp
  · rw [← hwB, ← hwL]
    ext <;> simp [total] <;> ring

/-- C54, negation. If the light vertex found by the hit has another density than the one found by the light sample (see `C54_negation_smooth_light`), the path is not counted once: the two weights do not sum to 1. -/
theorem C54_negation_weights (W : World) (hW : Shipped W) (Q : Query) (c : Cfg) (nv : ℕ) (st : St) (r : Rnd) (spL : SI) (woL wL wB : V3 ℝ) (hit : SI) (rp : ℝ × ℝ) (pL pL' pB : ℝ) (Le fs : V3 ℝ)
    (hm : c.mode = .mis) (hnee : byNee W c nv st = some true)
    (hL : sampleDirect W r.light st.sp .LE = .ok spL woL wL) (hk : spL.kind = .light) (hvis : Q.visible st.sp spL = true) (hdeg : spL.geom.degenerated = false)
    (hLs : isSpecularComponent W spL 0 = some false) (hpL : pdfDirect W st.sp spL woL false = some pL) (hpL0 : 0 < pL) (hwL : pL • wL = Le)
    (hpB : pdfDirection W st.sp st.wi (-woL) st.comp false = some pB) (hfs : evalContrbDirection W st.sp st.wi (-woL) st.comp .EL false = some fs) (hpB0 : 0 < pB) (hwB : pB • wB = fs)
    (hhit : isLight W hit = some true) (hLs' : isSpecularComponent W (asLight hit) 0 = some false) (hLe : evalContrbDirection W (asLight hit) 0 woL st.comp .LE false = some Le)
    (hpL' : pdfDirect W st.sp (asLight hit) woL false = some pL') (hpL0' : 0 < pL') (hrp : newRaster W nv st (-woL) = some rp)
    (hne : pL ≠ pL') (hC : st.thr * fs * Le ≠ 0) :
    ∃ l1 l2, ptNee W Q c nv st r = some l1 ∧ hitSplat W c nv st (-woL) (st.thr * wB) rp hit = some l2 ∧
      pL • total l1 + pB • total l2 ≠ st.thr * fs * Le := by
  have hf : fs ≠ 0 := by
    rintro rfl
    apply hC
    ext <;> simp
  obtain ⟨l1, l2, h1, h2, e⟩ := mis_total W hW Q c nv st r spL woL wL wB hit rp pL pL' pB Le fs hm hnee hL hk hvis hdeg hLs hpL hpL0 hwL hpB hfs hpB0 hwB hf hhit hLs' hLe hpL' hpL0' hrp
  refine ⟨l1, l2, h1, h2, fun hx => ?_⟩
  rw [e] at hx
  have hk1 : pL / (pL + pB) + pB / (pB + pL') - 1 ≠ 0 := by
    intro h
    apply hne
    field_simp at h
    have : pB * (pL - pL') = 0 := by nlinarith
    rcases mul_eq_zero.mp this with h | h
    · exact absurd h hpB0.ne'
    · linarith
  have : (pL / (pL + pB) + pB / (pB + pL') - 1) • (st.thr * fs * Le) = 0 := by
    rw [sub_smul, hx, one_smul, sub_self]
  rcases smul_eq_zero.mp this with h | h
  · exact hk1 h
  · exact hC h

/-- C54, negation. A mesh light with interpolated normals: sampling the light evaluates its density with the face normal gn (light_area.cpp:66-73 builds the point geometry with it), the hit with the interpolated
    normal n. Whenever both face the shaded point and make different angles with the connection, the two densities differ, so by `C54_negation_weights` the path is not counted once. -/
theorem C54_negation_smooth_light (ts : List Tri) (M : Aff ℝ) (i : ℝ) (hi : transformedInvA ts M = some i) (hi0 : i ≠ 0) (g : Geom) (hg : g.infinite = false) (y n gn junk : V3 ℝ) (nz nz' : Bool) (wo : V3 ℝ)
    (hy : y ≠ g.p) (hwo : Material.normalize (g.p - y) = some wo) (hs : g.degenerated = true ∨ V3.dot g.n wo ≠ 0) (h1 : 0 < V3.dot wo gn) (h2 : 0 < V3.dot wo n) (hne : V3.dot wo gn ≠ V3.dot wo n) :
    ∃ p p', areaPdfDirect ts g (makeOnSurface y gn gn nz junk) M wo = some p ∧ areaPdfDirect ts g (makeOnSurface y n gn nz' junk) M wo = some p' ∧ p ≠ p' := by
  have hL2 : V3.dot (y - g.p) (y - g.p) ≠ 0 := by
    intro h
    exact hy (sub_eq_zero.mp (dot_self_zero h))
  have hswap : V3.dot (g.p - y) (g.p - y) = V3.dot (y - g.p) (y - g.p) := by simp [V3.dot]; ring
  have hd : (1 / Real.sqrt (V3.dot (y - g.p) (y - g.p))) • (y - g.p) = -wo := by
    unfold Material.normalize at hwo
    rw [hswap, if_neg hL2] at hwo
    simp only [Option.some.injEq] at hwo
    rw [← hwo]
    ext <;> simp <;> ring
  have hG : ∀ m gn' nz, geometryTerm g (makeOnSurface y m gn' nz junk) = some ((if g.degenerated then 1 else |V3.dot g.n (-wo)|) * |V3.dot m wo| / V3.dot (y - g.p) (y - g.p)) := by
    intro m gn' nz
    simp only [geometryTerm, hg, makeOnSurface, Bool.false_and, Bool.or_self, Bool.or_false, Bool.false_eq_true, if_false, if_neg hL2, hd, neg_neg]
  have hdn : ∀ m : V3 ℝ, V3.dot m wo = V3.dot wo m := fun m => by simp [V3.dot]; ring
  have hpos : 0 < V3.dot (y - g.p) (y - g.p) := lt_of_le_of_ne (dot_self_nonneg _) (Ne.symm hL2)
  set k := (if g.degenerated then 1 else |V3.dot g.n (-wo)|) with hkdef
  have hk : 0 < k := by
    rw [hkdef]
    split_ifs with h
    · exact one_pos
    · rcases hs with hs | hs
      · exact absurd hs h
      · have : V3.dot g.n (-wo) = -V3.dot g.n wo := by simp [V3.dot]; ring
        rw [this, abs_neg]; exact abs_pos.mpr hs
  have val : ∀ m gn' nz, 0 < V3.dot wo m → areaPdfDirect ts g (makeOnSurface y m gn' nz junk) M wo = some (i / (k * V3.dot wo m / V3.dot (y - g.p) (y - g.p))) := by
    intro m gn' nz hm
    have : (makeOnSurface y m gn' nz junk).n = m := rfl
    unfold areaPdfDirect
    rw [this, if_neg (not_le.mpr hm), hi, Option.bind_some, hG, hdn, abs_of_pos hm]
    simp only [overG, Option.map_some]
    rw [if_neg (by positivity)]
  refine ⟨_, _, val gn gn nz h1, val n gn nz' h2, fun h => hne ?_⟩
  field_simp at h
  linarith

/-- C54, negation. renderer::pt_nee_path samples one light vertex and connects it to the eye subpath, or uses the hit if the last eye vertex is specular. If the sampled light is at infinity (environment or directional
    light) and no eye vertex is specular, every connection fails, for all subpaths and limits: the path is counted zero times. -/
theorem C54_negation_pt_nee_path (W : World) (vis : SI → SI → Bool) (L E : List Vert) (l0 : Vert) (hL : L[0]? = some l0) (hinf : l0.sp.geom.infinite = true) (minVerts maxVerts : ℤ) :
    ∀ p ∈ ptNeePairs minVerts maxVerts L.length E.length (fun _ => false), ¬ ∃ vs, connect W vis L E p.1 p.2 = .ok vs := by
  intro p hp ⟨vs, h⟩
  simp only [ptNeePairs, List.mem_filterMap, List.mem_filter, List.mem_range, decide_eq_true_eq] at hp
  obtain ⟨n, ⟨_, h2, _⟩, hp⟩ := hp
  simp only [ptNeePair, Bool.false_eq_true, if_false] at hp
  split_ifs at hp with hc
  cases hp
  unfold connect at h
  have h1 : n - 1 ≠ 0 := by omega
  simp only [Nat.one_ne_zero, false_and, h1, if_false, Nat.sub_self, hL] at h
  split at h
  · next a b e1 e2 =>
    cases e1
    rw [hinf] at h
    simp at h
  · cases h

/-! ### Non-vacuity -/

/-- A constant environment light over a diffuse surface. -/
noncomputable def exSky : World where
  st := Scene.buildLights (Scene.run (fun _ => true) Scene.reset exLineOps) [(0, 1), (1, 1), (2, 1), (3, 1)]
  light _ := envconst (fun _ => false) 0 (V3.all 1) 0 1
  material _ := diffuse (fun _ => V3.all 1)
  phase _ := isotropic
  camera _ := exCam
  junk := 0

noncomputable def exSkyAt : St := ⟨exS.sp, 0, ⟨0, 0, -1⟩, V3.all 1, (1 / 2, 1 / 2)⟩
noncomputable def exSkyHit : SI := ⟨.light, 1, makeInfinite ⟨0, 0, 1⟩ 0 0⟩
def exSkyRnd : Rnd := ⟨⟨0, 0, 0, 0, 0, 0⟩, ⟨0, 0, 0⟩, 0, 0⟩
noncomputable def exSkyQ : Query := ⟨fun _ _ => some exSkyHit, fun _ _ => true⟩

theorem exSky_shipped : Shipped exSky := ⟨fun _ => .diffuse _, fun _ => .envconst _ _ _ _ _⟩

theorem exSky_light : sampleDirect exSky exSkyRnd.light exSkyAt.sp .LE = .ok exSkyHit ⟨0, 0, 1⟩ ((1 : ℝ) • ((1 / pdfSphere) • V3.all 1)) := by
  have hp := pdfSphere_pos.ne'
  have h : (envconst (fun _ => false) 0 (V3.all 1) 0 1).sampleDirect exSkyRnd.light.toLight exSkyAt.sp.geom (1 : Aff ℝ) = .ok (makeInfinite ⟨0, 0, 1⟩ 0 0) ⟨0, 0, 1⟩ ((1 / pdfSphere) • V3.all 1) := by
    have hw : MathF.sampleUniformSphere 0 0 = (⟨0, 0, 1⟩ : V3 ℝ) := by
      simp [MathF.sampleUniformSphere, MathF.safeSqrt]
    simp only [envconst, exSkyRnd, RaySampleU.toLight, hw]
    simp [rayOrFail, ray, convertSAtoProjSA, exSkyAt, exS, V3.dot, divV, hp]
  have : sampleDirect exSky exSkyRnd.light exSkyAt.sp .LE = wrap .light 1 (if true then 1 / (1 / ((1 : ℕ) : ℝ)) else 1) ((envconst (fun _ => false) 0 (V3.all 1) 0 1).sampleDirect exSkyRnd.light.toLight exSkyAt.sp.geom (1 : Aff ℝ)) := by
    have hl : exSky.st.lights.length = 1 := rfl
    have hsel : Scene.sampleLightSelection 1 (0 : ℝ) = (0, some (1 / ((1 : ℕ) : ℝ))) := by simp [Scene.sampleLightSelection, Scene.trunc]
    have hprim : Scene.lightPrimitiveIndexAt exSky.st 0 = some (1, 1) := rfl
    have hL : exSky.lightAt 1 = some (envconst (fun _ => false) 0 (V3.all 1) 0 1) := rfl
    simp only [sampleDirect, sampleFromLight, hl, exSkyRnd, hsel, hprim, hL]
  rw [this, h]
  simp [wrap, exSkyHit]

theorem exSky_pL : pdfDirect exSky exSkyAt.sp exSkyHit ⟨0, 0, 1⟩ false = some (1 * pdfSphere) := by
  have : pdfDirect exSky exSkyAt.sp exSkyHit ⟨0, 0, 1⟩ false = some (1 / ((1 : ℕ) : ℝ) * convertSAtoProjSA pdfSphere exSkyAt.sp.geom (-⟨0, 0, 1⟩)) := rfl
  rw [this]
  simp [convertSAtoProjSA, exSkyAt, exS, V3.dot]

theorem exSky_fs : evalContrbDirection exSky exSkyAt.sp exSkyAt.wi (-⟨0, 0, 1⟩) exSkyAt.comp .EL false = some (V3.all (1 / Real.pi)) ∧
    pdfDirection exSky exSkyAt.sp exSkyAt.wi (-⟨0, 0, 1⟩) exSkyAt.comp false = some (1 / Real.pi) := by
  have : exSky.materialAt exSkyAt.sp.primitive = some (diffuse (fun _ => V3.all 1)) := rfl
  have hk : exSkyAt.sp.kind = .surface := rfl
  simp only [evalContrbDirection, pdfDirection, hk, this, Option.bind_some]
  constructor
  · simp [diffuse, exSkyAt, exS, opposite, shadingNormalCorrection, V3.dot, toLocal, LM.MathF.localCos, V3.all]
    rw [if_neg (by norm_num), if_neg (by norm_num)]
    ext <;> simp
  · simp [diffuse, exSkyAt, exS, opposite, V3.dot]

/-- The hypotheses of `C54_once_partial` are met in every mode: the total is fs · Le = 1/π. -/
example (c : Cfg) : ∃ l1 l2, ptNee exSky exSkyQ c 2 exSkyAt exSkyRnd = some l1 ∧ hitSplat exSky c 2 exSkyAt (-⟨0, 0, 1⟩) (exSkyAt.thr * V3.all 1) (1 / 2, 1 / 2) exSkyHit = some l2 ∧
    (∀ s ∈ l1 ++ l2, s.verts = 3 ∧ s.rp = (1 / 2, 1 / 2)) ∧ (1 * pdfSphere) • total l1 + (1 / Real.pi) • total l2 = V3.all (1 / Real.pi) := by
  have hp := pdfSphere_pos
  have := C54_once_partial exSky exSky_shipped exSkyQ c 2 exSkyAt exSkyRnd exSkyHit ⟨0, 0, 1⟩ _ (V3.all 1) exSkyHit (1 / 2, 1 / 2) (1 * pdfSphere) (1 / Real.pi) (V3.all 1) (V3.all (1 / Real.pi)) false
    rfl exSky_light rfl rfl rfl exSky_pL rfl (by linarith) (by ext <;> simp [V3.all] <;> field_simp) exSky_fs.2 exSky_fs.1 (by positivity) (by ext <;> simp [V3.all]) rfl rfl rfl
  convert this using 10
  ext <;> simp [exSkyAt, V3.all]

/-- In the combined mode both techniques are used: `C54_light_sample_alone` and `C54_hit_alone` apply elsewhere. -/
example : byNee exSky ⟨.mis, true, 10⟩ 2 exSkyAt = some true ∧ byNee exSky ⟨.mis, true, 10⟩ 1 exSkyAt = some false ∧ isLight exSky exSkyHit = some true ∧
    isSpecularComponent exSky (asLight exSkyHit) 0 = some false := ⟨rfl, rfl, rfl, rfl⟩

/-- A square light whose interpolated normal is tilted by the rotation (3/5, 4/5) at a point seen from above meets the hypotheses of `C54_negation_smooth_light`. -/
example : ∃ i wo, transformedInvA exSquare 1 = some i ∧ i ≠ 0 ∧ Material.normalize ((⟨0, 0, 2⟩ : V3 ℝ) - ⟨0, 0, 0⟩) = some wo ∧ 0 < V3.dot wo ⟨0, 0, 1⟩ ∧ 0 < V3.dot wo (⟨3 / 5, 0, 4 / 5⟩ : V3 ℝ) ∧
    V3.dot wo ⟨0, 0, 1⟩ ≠ V3.dot wo ⟨3 / 5, 0, 4 / 5⟩ := by
  have h1 : transformedInvA exSquare 1 = some 1 := by
    simp only [transformedInvA, invA, exSquare_area]
    have : (1 : Aff ℝ).det = 1 := by simp [Aff.det, Aff.one_def, V3.dot, V3.cross]
    simp [divF, this]
  have h2 : Material.normalize ((⟨0, 0, 2⟩ : V3 ℝ) - ⟨0, 0, 0⟩) = some ⟨0, 0, 1⟩ := by
    have : Real.sqrt (2 * 2) = 2 := Real.sqrt_mul_self (by norm_num)
    simp [Material.normalize, V3.dot, this]
    ext <;> simp
  exact ⟨1, _, h1, one_ne_zero, h2, by simp [V3.dot], by simp [V3.dot], by simp [V3.dot]; norm_num⟩

/-- Under the environment light an eye subpath camera - surface - sky is found by the naive strategy (0, 3), and by no strategy of pt_nee_path. -/
example : connect exSky (fun _ _ => true) [⟨exSkyHit, 0⟩] [exE, exS, ⟨exSkyHit, 0⟩] 0 3 ≠ .fail ∧ (0, 3) ∈ ptNaivePairs 2 10 3 ∧ (∀ vs, connect exSky (fun _ _ => true) [⟨exSkyHit, 0⟩] [exE, exS, ⟨exSkyHit, 0⟩] 1 2 ≠ .ok vs) ∧
    (1, 2) ∈ ptNeePairs 2 10 1 3 (fun _ => false) := by
  refine ⟨?_, by decide, ?_, by decide⟩
  · intro h
    have : connect exSky (fun _ _ => true) [⟨exSkyHit, 0⟩] [exE, exS, ⟨exSkyHit, 0⟩] 0 3 = .ok [⟨exSkyHit, 0⟩, exS, exE] := rfl
    rw [this] at h; cases h
  · intro vs h
    have : connect exSky (fun _ _ => true) [⟨exSkyHit, 0⟩] [exE, exS, ⟨exSkyHit, 0⟩] 1 2 = .fail := rfl
    rw [this] at h; cases h

end LM.Render
