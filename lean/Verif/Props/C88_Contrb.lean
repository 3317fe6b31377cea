import Verif.Props.C88_Alpha
/-
  C88: the contribution of two connected subpaths, from the cached throughputs, is the sampling weight of the path they form.
-/
namespace LM.Path
open LM LM.Surface LM.Material LM.Light LM.Volume LM.Render

/-- The path of the first s vertices of one subpath and the first t vertices of the other, backwards. -/
theorem align (L E : List Vert) {s t : ℕ} (hs : s ≤ L.length) (ht : t ≤ E.length) :
    (L.take s ++ (E.take t).reverse).length = s + t ∧ (∀ i : ℕ, i < s → vertexAt (L.take s ++ (E.take t).reverse) i .LE = L[i]?) ∧ (∀ j : ℕ, j < t → vertexAt (L.take s ++ (E.take t).reverse) j .EL = E[j]?) := by
  have hlen : (L.take s ++ (E.take t).reverse).length = s + t := by simp; omega
  refine ⟨hlen, fun i hi => ?_, fun j hj => ?_⟩
  · unfold vertexAt index
    rw [hlen, if_pos (by omega), if_pos rfl, Int.toNat_natCast, List.getElem?_append_left (by simp; omega), List.getElem?_take, if_pos hi]
  · unfold vertexAt index
    rw [hlen, if_pos (by omega), if_neg (by decide), show (((s + t : ℕ) : ℤ) - 1 - (j : ℤ)).toNat = s + t - 1 - j by omega, List.getElem?_append_right (by simp; omega),
      List.getElem?_reverse (by simp; omega), List.getElem?_take]
    simp only [List.length_take]
    rw [if_pos (by omega)]
    congr 1
    omega

theorem smul_mul_V3 (a : ℝ) (x y z w : V3 ℝ) : x * ((a • y) * z) * w = (a • (x * y)) * z * w := by ext <;> simp <;> left <;> ring

section
variable {W : World} {L E : List CV} {kL kE : Kind} {s t : ℕ} {vs : List Vert} {c : V3 ℝ}

/-- s, t ≥ 1: the contribution computed from the cache is the sampling weight of the path. -/
theorem contrb_join (HL : Subpath W L kL) (TL : Throughput W .LE L) (HE : Subpath W E kE) (TE : Throughput W .EL E) (hs : 1 ≤ s) (hsL : s ≤ L.length) (ht : 1 ≤ t) (htE : t ≤ E.length)
    (hlen : vs.length = s + t) (aL : ∀ i : ℕ, i < s → vertexAt vs i .LE = L[i]?.map CV.vert) (aE : ∀ j : ℕ, j < t → vertexAt vs j .EL = E[j]?.map CV.vert)
    {vis : SI → SI → Bool} {u v : CV} (hu : L[s - 1]? = some u) (hv : E[t - 1]? = some v) (hvis : vis u.sp v.sp = true)
    (cu : s = 1 → isConnectableEndpoint W u.sp ≠ some false) (cv : t = 1 → isConnectableEndpoint W v.sp ≠ some false) (hc : connectionTerm W vs s = some c) :
    samplingWeight W vs s = some (u.alpha * c * v.alpha) ∧ optContrb W vis L E s t = some (u.alpha * c * v.alpha) := by
  have wL := TL.weight (fun x hx => (HL.first x hx).1) HL.dir hs hsL aL hu cu
  have wE := TE.weight (fun x hx => (HE.first x hx).1) HE.dir ht htE aE hv cv
  constructor
  · unfold samplingWeight
    rw [wL, show vs.length - s = t by omega, wE, hc]
    simp only [Option.bind_eq_bind, Option.bind_some]
    split_ifs with h1 h2
    · rw [h1]; exact congrArg some (by ext <;> simp)
    · rw [h2]; exact congrArg some (by ext <;> simp)
    · rfl
  · have back : ∀ {dir : TransDir} {A : List CV} {k : Kind} (H : Subpath W A k) {l : ℕ} {x : CV} (_ : 1 ≤ l) (_ : l ≤ A.length) (_ : ∀ i : ℕ, i < l → vertexAt vs i dir = A[i]?.map CV.vert) (_ : A[l - 1]? = some x),
        vertexAt vs ((l : ℤ) - 1) dir = some x.vert ∧ direction (some x.vert) (vertexAt vs ((l : ℤ) - 2) dir) = some x.wRev := by
      intro dir A k H l x h1 hl al hx
      refine ⟨by rw [show (l : ℤ) - 1 = ((l - 1 : ℕ) : ℤ) by omega, al _ (by omega), hx]; rfl, ?_⟩
      rcases Nat.lt_or_ge l 2 with h2 | h2
      · have e : vertexAt vs ((l : ℤ) - 2) dir = none := by unfold vertexAt; rw [if_neg (by omega)]
        have : l = 1 := by omega
        subst this
        rw [e, (H.first x hx).1]
        rfl
      · obtain ⟨y, hy⟩ : ∃ y, A[l - 2]? = some y := ⟨_, List.getElem?_eq_getElem (by omega)⟩
        rw [show (l : ℤ) - 2 = ((l - 2 : ℕ) : ℤ) by omega, al _ (by omega), hy]
        exact (H.dir (l - 2) y x hy (by rw [show l - 2 + 1 = l - 1 by omega]; exact hx)).2
    obtain ⟨bL, dL⟩ := back HL hs hsL aL hu
    obtain ⟨bE, dE⟩ := back HE ht htE aE hv
    have et : (vs.length : ℤ) - (s : ℤ) = (t : ℤ) := by rw [hlen]; push_cast; ring
    unfold connectionTerm at hc
    simp only [et, bL, bE, dL, dE, Option.bind_eq_bind, Option.bind_some] at hc
    rw [if_neg (by omega), if_neg (by omega), if_pos (by omega)] at hc
    obtain ⟨x1, h1, hc⟩ := bind_some hc
    obtain ⟨x2, h2, hc⟩ := bind_some hc
    obtain ⟨x3, h3, hc⟩ := bind_some hc
    obtain ⟨x4, h4, hc⟩ := bind_some hc
    obtain ⟨x5, h5, hc⟩ := bind_some hc
    cases hc
    have h3' : evalContrbDirection W u.sp u.wRev x1 u.comp .LE true = some x3 := h3
    have h4' : evalContrbDirection W v.sp v.wRev x2 v.comp .EL true = some x4 := h4
    have h5' : geometryTerm u.sp.geom v.sp.geom = some x5 := h5
    unfold optContrb
    rw [if_neg (by omega), if_neg (by omega)]
    simp only [hu, hv, hvis, h1, h2, h3', h4', h5', Option.bind_eq_bind, Option.bind_some, Bool.not_true, Bool.false_eq_true, if_false]
    exact congrArg some (smul_mul_V3 _ _ _ _ _).symm

/-- The raster position, from the cache. -/
theorem raster_join (HE : Subpath W E kE) (hs : 1 ≤ s) (ht : 1 ≤ t) (htE : t ≤ E.length) (hlen : vs.length = s + t) (aL : ∀ i : ℕ, i < s → vertexAt vs i .LE = L[i]?.map CV.vert) (aE : ∀ j : ℕ, j < t → vertexAt vs j .EL = E[j]?.map CV.vert)
    {u : CV} (hu : L[s - 1]? = some u) : optRaster W L E s t = rasterOf W vs := by
  obtain ⟨x, hx⟩ : ∃ x, E[0]? = some x := ⟨_, List.getElem?_eq_getElem (by omega)⟩
  have e0 : vertexAt vs 0 .EL = some x.vert := by have := aE 0 (by omega); rw [hx] at this; exact_mod_cast this
  unfold optRaster rasterOf
  rw [if_neg (by omega), e0]
  rcases Nat.lt_or_ge t 2 with h2 | h2
  · have : t = 1 := by omega
    subst this
    have e1 : vertexAt vs 1 .EL = some u.vert := by
      have := aL (s - 1) (by omega)
      rw [hu] at this
      unfold vertexAt index at this ⊢
      rw [if_pos (by omega), if_pos rfl] at this
      rw [if_pos (by omega), if_neg (by decide), hlen, show (((s + 1 : ℕ) : ℤ) - 1 - 1).toNat = s - 1 by omega]
      rw [Int.toNat_natCast] at this
      exact this
    rw [if_pos rfl, if_neg (by omega), e1]
    simp only [hu, hx, Option.bind_eq_bind, Option.bind_some]
  · obtain ⟨y, hy⟩ : ∃ y, E[0 + 1]? = some y := ⟨_, List.getElem?_eq_getElem (by omega)⟩
    have e1 : vertexAt vs 1 .EL = some y.vert := by have := aE 1 (by omega); rw [hy] at this; exact_mod_cast this
    rw [if_neg (by omega), e1, (HE.dir 0 x y hx hy).1]
    simp only [hx, Option.bind_eq_bind, Option.bind_some]

/-! ### The eye subpath alone -/

/-- The last vertex of a subpath re-typed: its throughput without the probability of its component. -/
theorem Throughput.retype (T : Throughput W .EL E) (ht : 2 ≤ t) (htE : t ≤ E.length) {v : CV} (hv : E[t - 1]? = some v) {k : Kind} (hk : pdfComponent W (v.sp.asType k) v.wRev v.comp = some 1)
    (hd : ∀ (i : ℕ) (v v' : CV), E[i]? = some v → E[i + 1]? = some v' → direction (some v.vert) (some v'.vert) = some v.wFwd ∧ direction (some v'.vert) (some v.vert) = some v'.wRev ∧ v'.wRev = -v.wFwd)
    {pc : ℝ} (hpc : pdfComponent W v.sp v.wRev v.comp = some pc) : Throughput W .EL ((E.take t).set (t - 1) { v with sp := v.sp.asType k, alpha := pc • v.alpha }) := by
  have get : ∀ i x, ((E.take t).set (t - 1) { v with sp := v.sp.asType k, alpha := pc • v.alpha })[i]? = some x → (i + 1 < t ∧ E[i]? = some x) ∨ (i + 1 = t ∧ x = { v with sp := v.sp.asType k, alpha := pc • v.alpha }) := by
    intro i x hx
    rw [List.getElem?_set] at hx
    split at hx
    · next h =>
      split at hx
      · cases hx; exact .inr ⟨by omega, rfl⟩
      · cases hx
    · next h =>
      rw [List.getElem?_take] at hx
      split at hx
      · exact .inl ⟨by omega, hx⟩
      · cases hx
  refine ⟨fun x hx => ?_, fun i x x' hx hx' => ?_⟩
  · rcases get _ _ hx with ⟨-, h⟩ | ⟨h, -⟩
    · exact T.first x h
    · omega
  · rcases get _ _ hx with ⟨hi, h⟩ | ⟨hi, -⟩ <;> rcases get _ _ hx' with ⟨hi', h'⟩ | ⟨hi', rfl⟩ <;> try omega
    · exact T.step i x x' h h'
    · have hv' : E[i + 1]? = some v := by rw [← hv]; congr 1; omega
      obtain ⟨f, hf, z, nz⟩ := T.step i x v h hv'
      refine ⟨f, hf, fun h0 => ?_, fun h0 => ?_⟩
      · show pc • v.alpha = 0
        rw [z h0]; ext <;> simp
      · obtain ⟨pd, pc', h1, h2, h3, h4, h5, h6⟩ := nz h0
        have hw := (hd i x v h hv').2.2
        rw [← hw, hpc] at h4
        cases h4
        refine ⟨pd, 1, h1, h2, h3, by rw [← hw]; exact hk, one_ne_zero, ?_⟩
        show pc • v.alpha = _
        rw [h6]
        ext <;> simp <;> field_simp

/-- The sampling weight of an eye subpath whose last vertex is taken for the vertex on the light: the cached throughput, times the probability of the component of that vertex. -/
theorem weight_hit (HE : Subpath W E kE) (TE : Throughput W .EL E) (hw : ∀ (i : ℕ) (v v' : CV), E[i]? = some v → E[i + 1]? = some v' → v'.wRev = -v.wFwd) (ht : 2 ≤ t) (htE : t ≤ E.length)
    {v : CV} (hv : E[t - 1]? = some v) (hlen : vs.length = t) (aE : ∀ j : ℕ, j + 1 < t → vertexAt vs j .EL = E[j]?.map CV.vert) (hx : vertexAt vs ((t - 1 : ℕ) : ℤ) .EL = some ⟨v.sp.asType .light, v.comp⟩)
    {pc : ℝ} (hpc : pdfComponent W v.sp v.wRev v.comp = some pc) : subpathWeight W vs t .EL = some (pc • v.alpha) := by
  have TE' := TE.retype ht htE hv (k := .light) (by simp [pdfComponent, SI.asType]) (fun i v v' h h' => ⟨(HE.dir i v v' h h').1, (HE.dir i v v' h h').2, hw i v v' h h'⟩) hpc
  set v' : CV := { v with sp := v.sp.asType .light, alpha := pc • v.alpha } with hv'
  have hlen' : ((E.take t).set (t - 1) v').length = t := by simp; omega
  have get : ∀ i x, ((E.take t).set (t - 1) v')[i]? = some x → (i + 1 < t ∧ E[i]? = some x) ∨ (i + 1 = t ∧ x = v') := by
    intro i x hx
    rw [List.getElem?_set] at hx
    split at hx
    · next h =>
      split at hx
      · cases hx; exact .inr ⟨by omega, rfl⟩
      · cases hx
    · next h =>
      rw [List.getElem?_take] at hx
      split at hx
      · exact .inl ⟨by omega, hx⟩
      · cases hx
  have hlast : ((E.take t).set (t - 1) v')[t - 1]? = some v' := List.getElem?_set_self (by simp; omega)
  refine TE'.weight (w := v') (fun x hx => ?_) (fun i x x' hx hx' => ?_) (by omega) hlen'.ge (fun i hi => ?_) hlast (by omega)
  · rcases get _ _ hx with ⟨-, h⟩ | ⟨h, -⟩
    · exact (HE.first x h).1
    · omega
  · rcases get _ _ hx with ⟨hi, h⟩ | ⟨hi, -⟩ <;> rcases get _ _ hx' with ⟨hi', h'⟩ | ⟨hi', rfl⟩ <;> try omega
    · exact HE.dir i x x' h h'
    · exact HE.dir i x v h (by rw [← hv]; congr 1; omega)
  · rcases Nat.lt_or_ge (i + 1) t with h | h
    · rw [aE i h, List.getElem?_set_ne (by omega), List.getElem?_take, if_pos hi]
    · have : i = t - 1 := by omega
      subst this
      rw [hx, hlast]
      rfl

/-- s = 0: the contribution computed from the cache, times the probability of the component of the last vertex, is the sampling weight of the path. -/
theorem contrb_hit (HE : Subpath W E kE) (TE : Throughput W .EL E) (hw : ∀ (i : ℕ) (v v' : CV), E[i]? = some v → E[i + 1]? = some v' → v'.wRev = -v.wFwd) (ht : 2 ≤ t) (htE : t ≤ E.length)
    {v : CV} (hv : E[t - 1]? = some v) (hlen : vs.length = t) (aE : ∀ j : ℕ, j + 1 < t → vertexAt vs j .EL = E[j]?.map CV.vert) (hx : vertexAt vs ((t - 1 : ℕ) : ℤ) .EL = some ⟨v.sp.asType .light, v.comp⟩)
    {pc : ℝ} (hpc : pdfComponent W v.sp v.wRev v.comp = some pc) (hc : connectionTerm W vs 0 = some c) (vis : SI → SI → Bool) :
    samplingWeight W vs 0 = some (pc • (c * v.alpha)) ∧ optContrb W vis L E 0 t = some (c * v.alpha) := by
  have wE := weight_hit HE TE hw ht htE hv hlen aE hx hpc
  constructor
  · unfold samplingWeight
    rw [show subpathWeight W vs 0 .LE = some (V3.all 1) from rfl, Nat.sub_zero, hlen, wE, hc]
    have h1 : V3.all (1 : ℝ) ≠ 0 := fun h => by have := congrArg V3.x h; simp [V3.all] at this
    simp only [Option.bind_eq_bind, Option.bind_some, if_neg h1]
    split_ifs with h2
    · refine congrArg some ?_
      have : pc • (c * v.alpha) = c * (pc • v.alpha) := by ext <;> simp <;> ring
      rw [this, h2]; ext <;> simp
    · refine congrArg some ?_
      ext <;> simp [V3.all] <;> ring
  · obtain ⟨y, hy⟩ : ∃ y, E[t - 2]? = some y := ⟨_, List.getElem?_eq_getElem (by omega)⟩
    have e0 : vertexAt vs 0 .LE = some ⟨v.sp.asType .light, v.comp⟩ := by
      unfold vertexAt index at hx ⊢
      rw [if_pos (by omega), if_neg (by decide), hlen, show ((t : ℤ) - 1 - ((t - 1 : ℕ) : ℤ)).toNat = 0 by omega] at hx
      rw [if_pos (by omega), if_pos rfl]
      exact hx
    have e1 : vertexAt vs 1 .LE = some y.vert := by
      have := aE (t - 2) (by omega)
      rw [hy] at this
      unfold vertexAt index at this ⊢
      rw [if_pos (by omega), if_neg (by decide), hlen, show ((t : ℤ) - 1 - ((t - 2 : ℕ) : ℤ)).toNat = 1 by omega] at this
      rw [if_pos (by omega), if_pos rfl]
      exact this
    have ed : direction (some ⟨v.sp.asType .light, v.comp⟩) (some y.vert) = some v.wRev :=
      (HE.dir (t - 2) y v hy (by rw [show t - 2 + 1 = t - 1 by omega]; exact hv)).2
    unfold connectionTerm at hc
    rw [if_pos ⟨rfl, by rw [hlen]; push_cast; omega⟩] at hc
    simp only [e0, e1, ed, Option.bind_eq_bind, Option.bind_some] at hc
    have hc' : evalContrbDirection W (v.sp.asType .light) 0 v.wRev 0 .LE true = some c := by
      rw [← hc]
      simp [evalContrbDirection, SI.asType]
    unfold optContrb
    rw [if_pos rfl]
    simp only [hv, hc', Option.bind_eq_bind, Option.bind_some, Option.pure_def]

end

end LM.Path
