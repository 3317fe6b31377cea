import Verif.Props.C88_Contrb
/-
  C88: with the same random numbers, renderer::bdptopt samples the subpaths of renderer::bdpt, and caches with them what Props/C88_Contrb.lean uses.
-/
namespace LM.Path
open LM LM.Surface LM.Material LM.Light LM.Volume LM.Render

/-- The samplers of the scene, for the random numbers `r` of fewer than N vertices: their weights are value / density, and what a ray meets is on the ray. `ok v wi`: directions can be sampled at the vertex v, reached from direction wi. -/
structure Drive (W : World) (Q : Query) (N : ℤ) (dir : TransDir) (k : Kind) (r : ℕ → Rnd) (ok : Vert → V3 ℝ → Prop) : Prop where
  start : ∀ sp wo C, 0 < N → samplePrimaryRay W (r 0).light dir = .ok sp wo C → sp.kind = k ∧ V3.dot wo wo = 1 ∧ sp.geom.infinite = false ∧ pdfComponent W sp 0 0 = some 1 ∧ isConnectableEndpoint W sp = some true ∧
    ∃ pA pd f, pdfPosition W sp = some pA ∧ pA ≠ 0 ∧ pdfDirection W sp 0 wo 0 false = some pd ∧ evalContrbDirection W sp 0 wo 0 dir false = some f ∧ (f = 0 → C = 0) ∧ (f ≠ 0 → pd ≠ 0 ∧ C = (1 / pA) • ((1 / pd) • f))
  turn : ∀ (m : ℕ) v wi wo C, (m : ℤ) < N → ok v wi → sampleDirection W (r m).dir v.sp wi v.comp dir = .ok wo C → V3.dot wo wo = 1 ∧ ∃ pd f rev, pdfDirection W v.sp wi wo v.comp false = some pd ∧ pdfDirection W v.sp wo wi v.comp false = some rev ∧
    evalContrbDirection W v.sp wi wo v.comp dir false = some f ∧ (f = 0 → C = 0) ∧ (f ≠ 0 → pd ≠ 0 ∧ C = (1 / pd) • f)
  hit : ∀ (m : ℕ) o d h, (m : ℤ) < N → V3.dot d d = 1 → Q.isect o d = some h → h.geom.degenerated = false ∧ h.geom.infinite = false ∧ (∃ s : ℝ, 0 < s ∧ h.geom.p = o + s • d) ∧
    ∃ c wc pc, sampleComponent W (r m).comp h (-d) = some (c, wc) ∧ pdfComponent W h (-d) c = some pc ∧ pc ≠ 0 ∧ wc = 1 / pc ∧ ok ⟨h, c⟩ (-d)

/-- A sampled subpath with its cache. -/
structure Run (W : World) (way : TransDir) (k : Kind) (A : List CV) : Prop extends Subpath W A k where
  thr : Throughput W way A
  back : ∀ (i : ℕ) (v v' : CV), A[i]? = some v → A[i + 1]? = some v' → v'.wRev = -v.wFwd
  finite : ∀ (i : ℕ) (v : CV), A[i]? = some v → v.sp.geom.infinite = false
  comp : ∀ (i : ℕ) (v : CV), 0 < i → A[i]? = some v → ∃ pc, pdfComponent W v.sp v.wRev v.comp = some pc ∧ pc ≠ 0

theorem geometryTerm_defined {a b : Geom} (ha : a.infinite = false) (hb : b.infinite = false) (h : V3.dot (b.p - a.p) (b.p - a.p) ≠ 0) : ∃ G, geometryTerm a b = some G := by
  unfold geometryTerm
  simp only [ha, hb, Bool.or_self, Bool.and_self, Bool.false_eq_true, if_false]
  rw [if_neg h]
  exact ⟨_, rfl⟩

theorem convert_defined (p : ℝ) {a b : Geom} (ha : a.infinite = false) (hb : b.infinite = false) (h : V3.dot (b.p - a.p) (b.p - a.p) ≠ 0) : ∃ q, convertToArea p a b = some q := by
  obtain ⟨G, e⟩ := geometryTerm_defined ha hb h
  exact ⟨p * G, by unfold convertToArea; rw [e]; rfl⟩

/-- Directions between finite points exist only if the points differ. -/
theorem direction_apart {u v : Vert} {d : V3 ℝ} (hu : u.sp.geom.infinite = false) (hv : v.sp.geom.infinite = false) (h : direction (some u) (some v) = some d) : V3.dot (v.sp.geom.p - u.sp.geom.p) (v.sp.geom.p - u.sp.geom.p) ≠ 0 := by
  intro c
  unfold direction at h
  simp only [hu, hv, Bool.and_self, Bool.false_eq_true, if_false] at h
  unfold Material.normalize at h
  rw [if_pos c] at h
  cases h

/-- A point ahead on a ray. -/
theorem ahead {u v : Vert} {d : V3 ℝ} (hu : u.sp.geom.infinite = false) (hv : v.sp.geom.infinite = false) (hd : V3.dot d d = 1) (h : ∃ s : ℝ, 0 < s ∧ v.sp.geom.p = u.sp.geom.p + s • d) :
    direction (some u) (some v) = some d ∧ direction (some v) (some u) = some (-d) := by
  obtain ⟨r, hr, hp⟩ := h
  have a1 : v.sp.geom.p - u.sp.geom.p = r • d := by rw [hp]; ext <;> simp
  have a2 : u.sp.geom.p - v.sp.geom.p = r • (-d) := by rw [hp]; ext <;> simp
  have hu' : V3.dot (-d) (-d) = 1 := by rw [← hd]; simp [V3.dot]
  unfold direction
  simp only [hu, hv, Bool.and_false, Bool.false_eq_true, if_false, a1, a2]
  exact ⟨normalize_smul hd hr, normalize_smul hu' hr⟩

section
variable {W : World} {dir : TransDir} {k : Kind} {A : List CV} {u v : CV} {wo : V3 ℝ} {rev : ℝ}

theorem Run.upd (G : Run W dir k A) (h2 : 2 ≤ A.length) (hu : A[A.length - 2]? = some u) (hv : A[A.length - 1]? = some v) :
    Run W dir k ((A.set (A.length - 1) { v with wFwd := wo }).set (A.length - 2) { u with pdfRev := rev }) := by
  have at2 : ∀ i, i + 2 = A.length → A[i]? = some u := fun i hi => by rw [← hu]; congr 1; omega
  have at1 : ∀ i, i + 1 = A.length → A[i]? = some v := fun i hi => by rw [← hv]; congr 1; omega
  have S : Good W A k := ⟨G.toSubpath, h2, fun x hx => G.finite _ x hx⟩
  refine ⟨S.upd hu hv, ⟨?_, ?_⟩, ?_, ?_, ?_⟩
  · intro x hx
    rcases upd_get h2 _ _ _ _ hx with ⟨-, h⟩ | ⟨hi, rfl⟩ | ⟨hi, -⟩
    · exact G.thr.first x h
    · exact G.thr.first u (at2 0 hi)
    · omega
  · intro i x x' hx hx'
    rcases upd_get h2 _ _ _ _ hx with ⟨hi, h⟩ | ⟨hi, rfl⟩ | ⟨hi, rfl⟩ <;> rcases upd_get h2 _ _ _ _ hx' with ⟨hi', h'⟩ | ⟨hi', rfl⟩ | ⟨hi', rfl⟩ <;> try omega
    · exact G.thr.step i x x' h h'
    · exact G.thr.step i x u h (at2 _ hi')
    · exact G.thr.step i u v (at2 i hi) (at1 _ hi')
  · intro i x x' hx hx'
    rcases upd_get h2 _ _ _ _ hx with ⟨hi, h⟩ | ⟨hi, rfl⟩ | ⟨hi, rfl⟩ <;> rcases upd_get h2 _ _ _ _ hx' with ⟨hi', h'⟩ | ⟨hi', rfl⟩ | ⟨hi', rfl⟩ <;> try omega
    · exact G.back i x x' h h'
    · exact G.back i x u h (at2 _ hi')
    · exact G.back i u v (at2 i hi) (at1 _ hi')
  · intro i x hx
    rcases upd_get h2 _ _ _ _ hx with ⟨hi, h⟩ | ⟨hi, rfl⟩ | ⟨hi, rfl⟩
    · exact G.finite i x h
    · exact G.finite i u (at2 i hi)
    · exact G.finite i v (at1 i hi)
  · intro i x h0 hx
    rcases upd_get h2 _ _ _ _ hx with ⟨hi, h⟩ | ⟨hi, rfl⟩ | ⟨hi, rfl⟩
    · exact G.comp i x h0 h
    · exact G.comp i u h0 (at2 i hi)
    · exact G.comp i v h0 (at1 i hi)

/-- One more vertex. -/
theorem Run.push (G : Run W dir k A) (hv : A[A.length - 1]? = some v) (h1 : 1 ≤ A.length) {h : CV} (S : Subpath W (A ++ [h]) k) (hb : h.wRev = -v.wFwd) (hf : h.sp.geom.infinite = false) {f : V3 ℝ} {pd pc : ℝ}
    (hev : evalContrbDirection W v.sp v.wRev v.wFwd v.comp dir false = some f) (hz : f = 0 → h.alpha = 0)
    (hpd : pdfDirection W v.sp v.wRev v.wFwd v.comp false = some pd) (hpc : pdfComponent W h.sp (-v.wFwd) h.comp = some pc) (hpc0 : pc ≠ 0) (hn : ¬ (A.length = 1 ∧ isConnectableEndpoint W v.sp = some false))
    (hnz : f ≠ 0 → pd ≠ 0 ∧ h.alpha = v.alpha * ((1 / pc) • ((1 / pd) • f))) : Run W dir k (A ++ [h]) := by
  have get : ∀ i x, (A ++ [h])[i]? = some x → (i < A.length ∧ A[i]? = some x) ∨ (i = A.length ∧ x = h) := by
    intro i x hx
    rcases Nat.lt_or_ge i A.length with hi | hi
    · rw [List.getElem?_append_left hi] at hx; exact .inl ⟨hi, hx⟩
    · rw [List.getElem?_append_right hi] at hx
      have hi2 := (List.getElem?_eq_some_iff.mp hx).1
      have : i - A.length = 0 := by simp at hi2; omega
      rw [this] at hx
      simp at hx
      exact .inr ⟨by omega, hx.symm⟩
  have isv : ∀ i x, i + 1 = A.length → A[i]? = some x → x = v := fun i x hi hx => by
    rw [show i = A.length - 1 by omega, hv] at hx; cases hx; rfl
  refine ⟨S, ⟨?_, ?_⟩, ?_, ?_, ?_⟩
  · intro x hx
    rcases get _ _ hx with ⟨-, h⟩ | ⟨hi, -⟩
    · exact G.thr.first x h
    · omega
  · intro i x x' hx hx'
    rcases get _ _ hx with ⟨hi, h⟩ | ⟨hi, -⟩ <;> rcases get _ _ hx' with ⟨hi', h'⟩ | ⟨hi', rfl⟩ <;> try omega
    · exact G.thr.step i x x' h h'
    · obtain rfl := isv i x hi' h
      refine ⟨f, hev, hz, fun h0 => ⟨pd, pc, fun c => absurd ⟨by omega, c.2⟩ hn, fun _ => hpd, (hnz h0).1, hpc, hpc0, (hnz h0).2⟩⟩
  · intro i x x' hx hx'
    rcases get _ _ hx with ⟨hi, h⟩ | ⟨hi, -⟩ <;> rcases get _ _ hx' with ⟨hi', h'⟩ | ⟨hi', rfl⟩ <;> try omega
    · exact G.back i x x' h h'
    · rw [isv i x hi' h]; exact hb
  · intro i x hx
    rcases get _ _ hx with ⟨-, h⟩ | ⟨-, rfl⟩
    · exact G.finite i x h
    · exact hf
  · intro i x h0 hx
    rcases get _ _ hx with ⟨-, h⟩ | ⟨-, rfl⟩
    · exact G.comp i x h0 h
    · exact ⟨pc, by rw [hb]; exact hpc, hpc0⟩

end

/-- What both renderers get: nothing defined, or the same vertices. -/
def Same (W : World) (dir : TransDir) (k : Kind) (a : Option (List Vert)) (b : Option (List CV)) : Prop :=
  (a = none ∧ b = none) ∨ ∃ B, b = some B ∧ a = some (B.map CV.vert) ∧ Run W dir k B

section
variable {W : World} {Q : Query} {dir : TransDir} {k : Kind} {r : ℕ → Rnd} {ok : Vert → V3 ℝ → Prop} {junk : ℝ} {junkW : V3 ℝ} {N : ℤ}

/-- The vertices, without the cache. -/
theorem map_upd {A : List CV} {u v : CV} (hu : A[A.length - 2]? = some u) (hv : A[A.length - 1]? = some v) (wo : V3 ℝ) (rev : ℝ) :
    ((A.set (A.length - 1) { v with wFwd := wo }).set (A.length - 2) { u with pdfRev := rev }).map CV.vert = A.map CV.vert := by
  have self : ∀ (l : List CV) (j : ℕ) (x y : CV), l[j]? = some x → y.vert = x.vert → (l.set j y).map CV.vert = l.map CV.vert := by
    intro l j x y hx hy
    rw [List.map_set, hy]
    apply List.ext_getElem?
    intro i
    rw [List.getElem?_set]
    split
    · next h =>
      subst h
      split
      · rw [List.getElem?_map, hx]; rfl
      · next hl =>
        have := (List.getElem?_eq_some_iff.mp hx).1
        rw [List.length_map] at hl
        exact absurd this hl
    · rfl
  by_cases he : A.length - 2 = A.length - 1
  · rw [he] at hu ⊢
    rw [hv] at hu
    cases hu
    rw [List.set_set]
    exact self A _ _ _ hv rfl
  · exact (self _ _ u { u with pdfRev := rev } (by rw [List.getElem?_set_ne (Ne.symm he)]; exact hu) rfl).trans (self _ _ v { v with wFwd := wo } hv rfl)

theorem Drive.loop (D : Drive W Q N dir k r ok) (m : ℕ) : ∀ (A : List CV) (v : CV), Run W dir k A → 2 ≤ A.length → A[A.length - 1]? = some v → ok v.vert v.wRev →
    Same W dir k (subpathLoop W Q N dir r m (A.map CV.vert)) (optWalk W Q.isect junk junkW N (fun n => stepOf W dir (r n)) m A v.alpha) := by
  induction m with
  | zero => intro A v G _ _ _; exact .inr ⟨A, rfl, rfl, G⟩
  | succ m ih =>
    intro A v G h2 hv hok
    obtain ⟨u, hu⟩ : ∃ u, A[A.length - 2]? = some u := ⟨_, List.getElem?_eq_getElem (by omega)⟩
    have fu := G.finite _ _ hu
    have fv := G.finite _ _ hv
    rw [subpathLoop, optWalk, List.length_map]
    by_cases hN : (A.length : ℤ) < N
    swap
    · rw [if_neg hN, if_neg hN]; exact .inr ⟨A, rfl, rfl, G⟩
    rw [if_pos hN, if_pos hN]
    have duv := G.dir (A.length - 2) u v hu (by rw [show A.length - 2 + 1 = A.length - 1 by omega]; exact hv)
    have e1 : subpathVertexAt (A.map CV.vert) (((A.map CV.vert).length : ℤ) - 1) = some v.vert := by
      unfold subpathVertexAt
      rw [List.length_map, if_pos (by omega), show ((A.length : ℤ) - 1).toNat = A.length - 1 by omega, List.getElem?_map, hv]; rfl
    have e2 : subpathVertexAt (A.map CV.vert) (((A.map CV.vert).length : ℤ) - 2) = some u.vert := by
      unfold subpathVertexAt
      rw [List.length_map, if_pos (by omega), show ((A.length : ℤ) - 2).toNat = A.length - 2 by omega, List.getElem?_map, hu]; rfl
    have hray : subpathRay W dir (A.map CV.vert) (r A.length) = match sampleDirection W (r A.length).dir v.sp v.wRev v.comp dir with
        | .undef => .undef
        | .fail => .stop
        | .ok wo _ => .ray (A.map CV.vert) v.sp.geom.p wo := by
      unfold subpathRay
      rw [if_neg (by rw [List.length_map]; omega), e1, e2]
      dsimp only
      rw [duv.2]
      rfl
    rw [hray]
    have hopt : optRay W junk (stepOf W dir (r A.length)) A v.alpha = match sampleDirection W (r A.length).dir v.sp v.wRev v.comp dir with
        | .undef => none
        | .fail => some none
        | .ok wo C => do
          let rev ← if u.sp.geom.degenerated then some 1
            else (pdfDirection W v.sp wo v.wRev v.comp false).bind (fun p => convertToArea p v.sp.geom u.sp.geom)
          let next ← pdfDirection W v.sp v.wRev wo v.comp false
          return some ⟨(A.set (A.length - 1) { v with wFwd := wo }).set (A.length - 2) { u with pdfRev := rev }, next, v.alpha * C⟩ := by
      unfold optRay
      rw [if_neg (by omega), hv]
      dsimp only [stepOf]
      rw [hu]
      rfl
    rw [hopt]
    cases hs : sampleDirection W (r A.length).dir v.sp v.wRev v.comp dir with
    | undef => exact .inl ⟨rfl, rfl⟩
    | fail => exact .inr ⟨A, rfl, rfl, G⟩
    | ok wo C =>
      obtain ⟨hun, pd, f, rev, hpd, hrev, hf, hz, hnz⟩ := D.turn A.length v.vert v.wRev wo C hN hok hs
      obtain ⟨rv, hrv, hrvp⟩ : ∃ rv, (if u.sp.geom.degenerated then some 1 else (pdfDirection W v.sp wo v.wRev v.comp false).bind (fun p => convertToArea p v.sp.geom u.sp.geom)) = some rv ∧
          (u.sp.geom.degenerated = false → ∃ p, pdfDirection W v.sp wo v.wRev v.comp false = some p ∧ convertToArea p v.sp.geom u.sp.geom = some rv) := by
        obtain ⟨q, hq⟩ := convert_defined rev fv fu (direction_apart (u := v.vert) (v := u.vert) fv fu duv.2)
        have hrev' : pdfDirection W v.sp wo v.wRev v.comp false = some rev := hrev
        cases hdg : u.sp.geom.degenerated with
        | true => exact ⟨1, by simp, fun h => by simp at h⟩
        | false => exact ⟨q, by simp [hrev', hq], fun _ => ⟨rev, hrev', hq⟩⟩
      have hpd' : pdfDirection W v.sp v.wRev wo v.comp false = some pd := hpd
      have hdo : (do
          let rev ← if u.sp.geom.degenerated then some 1
            else (pdfDirection W v.sp wo v.wRev v.comp false).bind (fun p => convertToArea p v.sp.geom u.sp.geom)
          let next ← pdfDirection W v.sp v.wRev wo v.comp false
          return some (⟨(A.set (A.length - 1) { v with wFwd := wo }).set (A.length - 2) { u with pdfRev := rev }, next, v.alpha * C⟩ : OptSt) : Option (Option OptSt)) =
          some (some ⟨(A.set (A.length - 1) { v with wFwd := wo }).set (A.length - 2) { u with pdfRev := rv }, pd, v.alpha * C⟩) := by
        rw [hpd']
        cases hdg : u.sp.geom.degenerated with
        | true => rw [hdg] at hrv; simp at hrv; subst hrv; simp
        | false => rw [hdg] at hrv; simp at hrv; simp [hrv]
      dsimp only
      rw [hdo]
      obtain ⟨hlen, g1, g2⟩ := upd_ends h2 { u with pdfRev := rv } { v with wFwd := wo }
      have G2 := G.upd (wo := wo) (rev := rv) h2 hu hv
      have hmap := map_upd hu hv wo rv
      set A2 := (A.set (A.length - 1) { v with wFwd := wo }).set (A.length - 2) { u with pdfRev := rv } with hA2
      dsimp only
      rw [hlen, g1]
      dsimp only [stepOf]
      cases hhit : Q.isect v.sp.geom.p wo with
      | none => exact .inr ⟨A2, rfl, by rw [hmap], G2⟩
      | some hit =>
        obtain ⟨hdeg, hfin, hah, c, wc, pc, hsc, hpc, hpc0, hwc, hokc⟩ := D.hit A.length v.sp.geom.p wo hit hN hun hhit
        have hdirs := ahead (u := v.vert) (v := ⟨hit, c⟩) fv hfin hun hah
        obtain ⟨pa, hpa⟩ := convert_defined pd fv hfin (direction_apart (u := v.vert) (v := ⟨hit, c⟩) fv hfin hdirs.1)
        simp only [hsc, hpa, hfin, Bool.false_eq_true, if_false]
        have S' := G2.toSubpath.push (u := { u with pdfRev := rv }) (v := { v with wFwd := wo }) (h := ⟨hit, c, junkW, -wo, pa, junk, wc • (v.alpha * C)⟩) (by omega) (by rw [hlen]; exact g2) (by rw [hlen]; exact g1) pd hdirs hpa hpd' hrvp hdeg
        have R := G2.push (v := { v with wFwd := wo }) (by rw [hlen]; exact g1) (by omega) S' rfl hfin (f := f) (pd := pd) (pc := pc) hf
          (fun h0 => by show wc • (v.alpha * C) = 0; rw [hz h0]; ext <;> simp) hpd' hpc hpc0 (by rw [hlen]; omega)
          (fun h0 => ⟨(hnz h0).1, by
            show wc • (v.alpha * C) = v.alpha * ((1 / pc) • ((1 / pd) • f))
            rw [(hnz h0).2, hwc]
            ext <;> simp <;> ring⟩)
        have := ih _ ⟨hit, c, junkW, -wo, pa, junk, wc • (v.alpha * C)⟩ R (by simp; omega) (by simp) hokc
        rw [List.map_append, hmap] at this
        exact this

/-- With the same random numbers, the subpath of renderer::bdptopt has the vertices of the subpath of renderer::bdpt, and its cache is filled with the sampling weights. -/
theorem Drive.subpath (D : Drive W Q N dir k r ok) : Same W dir k (sampleSubpath W Q N dir r) (sampleSubpathOpt W Q junk junkW N dir r) := by
  have empty : Run W dir k ([] : List CV) := by
    refine ⟨⟨⟨?_, ?_, ?_, ?_⟩, ?_, ?_⟩, ⟨?_, ?_⟩, ?_, ?_, ?_⟩ <;> intros <;> simp at *
  unfold sampleSubpath sampleSubpathOpt
  by_cases h0 : N = 0
  · subst h0; exact .inr ⟨[], rfl, rfl, empty⟩
  rw [if_neg h0]
  cases hm : N.toNat with
  | zero => exact .inr ⟨[], rfl, rfl, empty⟩
  | succ m =>
    have hN : (0 : ℤ) < N := by omega
    rw [subpathLoop, optWalk, if_pos (by simpa using hN), if_pos (by simpa using hN)]
    unfold subpathRay optRay
    rw [if_pos (by rfl), if_pos (by rfl)]
    dsimp only [stepOf, List.length_nil]
    cases hs : samplePrimaryRay W (r 0).light dir with
    | undef => exact .inl ⟨rfl, rfl⟩
    | fail => exact .inr ⟨[], rfl, rfl, empty⟩
    | ok sp wo C =>
      obtain ⟨hk, hun, hfin0, hpc1, hconn, pA, pd, f, hpA, hpA0, hpd, hf, hz, hnz⟩ := D.start sp wo C hN hs
      have hst : startPdf W sp = some pA := by
        unfold startPdf
        simp only [hconn, Option.bind_eq_bind, Option.bind_some, if_true]
        exact hpA
      have hdv : divF 1 pA = some (1 / pA) := by unfold divF; rw [if_neg hpA0]
      simp only [hst, hdv, hconn, hpd, Option.bind_eq_bind, Option.bind_some, Option.pure_def, if_true, List.nil_append, List.length_singleton, Nat.sub_self, List.getElem?_cons_zero]
      have G1 : Run W dir k [⟨sp, 0, wo, 0, pA, junk, V3.all (1 / pA)⟩] := by
        refine ⟨start_one hk rfl hst, ⟨?_, ?_⟩, ?_, ?_, ?_⟩
        · intro v hv; simp at hv; subst hv; exact ⟨true, pA, hconn, hst, hpA0, hpc1, by simp⟩
        · intro i v v' _ hv'; simp at hv'
        · intro i v v' _ hv'; simp at hv'
        · intro i v hv
          have := (List.getElem?_eq_some_iff.mp hv).1
          have e : i = 0 := by simpa using this
          subst e; simp at hv; subst hv; exact hfin0
        · intro i v h0 hv
          have := (List.getElem?_eq_some_iff.mp hv).1
          have e : i = 0 := by simpa using this
          omega
      cases hhit : Q.isect sp.geom.p wo with
      | none => exact .inr ⟨_, rfl, rfl, G1⟩
      | some hit =>
        obtain ⟨hdeg, hfin, hah, c, wc, pc, hsc, hpc, hpc0, hwc, hokc⟩ := D.hit 0 sp.geom.p wo hit (by simpa using hN) hun hhit
        have hdirs := ahead (u := ⟨sp, 0⟩) (v := ⟨hit, c⟩) hfin0 hfin hun hah
        obtain ⟨pa, hpa⟩ := convert_defined pd hfin0 hfin (direction_apart (u := ⟨sp, 0⟩) (v := ⟨hit, c⟩) hfin0 hfin hdirs.1)
        simp only [hsc, hpa, hfin, Bool.false_eq_true, if_false]
        have S2 : Subpath W [⟨sp, 0, wo, 0, pA, junk, V3.all (1 / pA)⟩, ⟨hit, c, junkW, -wo, pa, junk, wc • C⟩] k :=
          start_two hk rfl hst hdirs pd hpa true hconn (by simpa using hpd) hdeg
        have R := G1.push (v := ⟨sp, 0, wo, 0, pA, junk, V3.all (1 / pA)⟩) rfl le_rfl S2 rfl hfin (f := f) (pd := pd) (pc := pc) hf
          (fun h0 => by show wc • C = 0; rw [hz h0]; ext <;> simp) hpd hpc hpc0 (by rw [hconn]; simp)
          (fun h0 => ⟨(hnz h0).1, by
            show wc • C = V3.all (1 / pA) * ((1 / pc) • ((1 / pd) • f))
            rw [(hnz h0).2, hwc]
            ext <;> simp [V3.all] <;> ring⟩)
        exact D.loop m _ ⟨hit, c, junkW, -wo, pa, junk, wc • C⟩ R le_rfl rfl hokc

end

end LM.Path
