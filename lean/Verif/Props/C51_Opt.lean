import Verif.Model.BdptOpt
import Verif.Props.C48_Connect
import Mathlib.Algebra.BigOperators.Intervals
import Mathlib.Algebra.BigOperators.Field
import Mathlib.Algebra.Order.BigOperators.Ring.Finset
/-
  C51: the weights of the optimized bidirectional path tracer are the balance heuristic of the path densities.
-/
namespace LM.Path
open LM LM.Surface LM.Material LM.Light LM.Volume Finset

/-! ### Specification: densities of the vertices of a path, counted from its first vertex -/

/-- The density, with respect to area, with which vertex i of the path is generated when the path is sampled from its first vertex: the first vertex by its position density if it can be connected to
    (1 otherwise); the second by the joint density of the primary ray if the first cannot be connected to; the others by sampling a direction at the vertex before. -/
noncomputable def dens (W : World) (vs : List Vert) : ℕ → Option ℝ
  | 0 => do
    let v ← vs[0]?
    let conn ← isConnectableEndpoint W v.sp
    if conn then pdfPosition W v.sp else some 1
  | i + 1 => do
    let v ← vs[i]?
    let v' ← vs[i + 1]?
    let wi ← direction (some v) (if i = 0 then none else vs[i - 1]?)
    let wo ← direction (some v) (some v')
    let conn ← if i = 0 then isConnectableEndpoint W v.sp else some true
    let p ← if conn then pdfDirection W v.sp wi wo v.comp false else pdfPrimaryRay W v.sp wo false
    convertToArea p v.sp.geom v'.sp.geom

/-! ### Cached subpaths -/

/-- What the cache of a subpath holds. -/
structure Cached (W : World) (A : List CV) : Prop where
  first : ∀ v, A[0]? = some v → v.wRev = 0 ∧ startPdf W v.sp = some v.pdfFwd
  dir : ∀ i v v', A[i]? = some v → A[i + 1]? = some v' → direction (some v.vert) (some v'.vert) = some v.wFwd ∧ direction (some v'.vert) (some v.vert) = some v'.wRev
  fwd : ∀ i v v', A[i]? = some v → A[i + 1]? = some v' → ∃ p, convertToArea p v.sp.geom v'.sp.geom = some v'.pdfFwd ∧
    (0 < i → pdfDirection W v.sp v.wRev v.wFwd v.comp false = some p) ∧
    (i = 0 → ∃ conn, isConnectableEndpoint W v.sp = some conn ∧ (if conn then pdfDirection W v.sp 0 v.wFwd v.comp false else pdfPrimaryRay W v.sp v.wFwd false) = some p)
  rev : ∀ i v v', A[i]? = some v → A[i + 1]? = some v' → i + 2 < A.length → v.sp.geom.degenerated = false →
    ∃ p, pdfDirection W v'.sp v'.wFwd v'.wRev v'.comp false = some p ∧ convertToArea p v'.sp.geom v.sp.geom = some v.pdfRev

/-- The path vs consists of the first s vertices of A and the first t vertices of B, backwards; only its end vertices may have another type, and the types of the first vertices of A and B stay. -/
structure Joined (vs : List Vert) (A B : List CV) (s t : ℕ) : Prop where
  len : vs.length = s + t
  a : ∀ i < s, ∃ c v, A[i]? = some c ∧ vs[i]? = some v ∧ v.SameUpToType c.vert ∧ (i + 1 < s + t → v = c.vert)
  b : ∀ j < t, ∃ c v, B[j]? = some c ∧ vs[s + t - 1 - j]? = some v ∧ v.SameUpToType c.vert ∧ (j + 1 < s + t → v = c.vert)

theorem Joined.reverse {vs : List Vert} {A B : List CV} {s t : ℕ} (H : Joined vs A B s t) : Joined vs.reverse B A t s := by
  refine ⟨by simp [H.len]; omega, ?_, ?_⟩
  · intro j hj
    obtain ⟨c, v, hc, hv, hs, he⟩ := H.b j hj
    refine ⟨c, v, hc, ?_, hs, fun h => he (by omega)⟩
    rw [List.getElem?_reverse (by rw [H.len]; omega), H.len]; exact hv
  · intro i hi
    obtain ⟨c, v, hc, hv, hs, he⟩ := H.a i hi
    refine ⟨c, v, hc, ?_, hs, fun h => he (by omega)⟩
    rw [List.getElem?_reverse (by rw [H.len]; omega), H.len, ← hv]
    congr 1; omega

theorem dir_congr {a a' b b' : Vert} (ha : a.sp.geom = a'.sp.geom) (hb : b.sp.geom = b'.sp.geom) : direction (some a) (some b) = direction (some a') (some b') := by
  unfold direction; simp only [ha, hb]

section
variable {W : World} {vs : List Vert} {A B : List CV} {s t : ℕ}

/-- Vertices of the first part are generated with their cached density. -/
theorem dens_lt (H : Joined vs A B s t) (h2 : 2 ≤ s + t) (CA : Cached W A) (i : ℕ) (hi : i < s) (c : CV) (hc : A[i]? = some c) : dens W vs i = some c.pdfFwd := by
  cases i with
  | zero =>
    obtain ⟨c', v, hc', hv, -, he⟩ := H.a 0 hi
    rw [hc] at hc'; cases hc'
    have := he (by omega)
    subst this
    obtain ⟨-, h⟩ := CA.first c hc
    simp only [dens, hv, Option.bind_eq_bind, Option.bind_some]
    exact h
  | succ k =>
    obtain ⟨c', v', hc', hv', hs', -⟩ := H.a (k + 1) hi
    rw [hc] at hc'; cases hc'
    obtain ⟨ck, v, hck, hv, -, he⟩ := H.a k (by omega)
    have := he (by omega)
    subst this
    obtain ⟨p, hp, hp1, hp0⟩ := CA.fwd k ck c hck hc
    obtain ⟨hwo, -⟩ := CA.dir k ck c hck hc
    have hwo' : direction (some ck.vert) (some v') = some ck.wFwd := by rw [← hwo]; exact dir_congr rfl hs'.2.2
    have hgeom : v'.sp.geom = c.sp.geom := hs'.2.2
    simp only [dens, hv, hv', Option.bind_eq_bind, Option.bind_some, hwo', hgeom]
    by_cases hk : k = 0
    · subst hk
      obtain ⟨conn, hconn, hpp⟩ := hp0 rfl
      have hd : direction (some ck.vert) none = some 0 := rfl
      have hconn' : isConnectableEndpoint W ck.vert.sp = some conn := hconn
      simp only [if_true, hd, Option.bind_some, hconn']
      cases conn
      · simp only [if_false, Bool.false_eq_true] at hpp ⊢
        rw [show ck.vert.sp = ck.sp from rfl, hpp]; exact hp
      · simp only [if_true] at hpp ⊢
        rw [show ck.vert.sp = ck.sp from rfl, show ck.vert.comp = ck.comp from rfl, hpp]; exact hp
    · obtain ⟨m, rfl⟩ : ∃ m, k = m + 1 := ⟨k - 1, by omega⟩
      obtain ⟨cm, u, hcm, hu, -, heu⟩ := H.a m (by omega)
      have := heu (by omega)
      subst this
      obtain ⟨-, hwi⟩ := CA.dir m cm ck hcm hck
      have hpd := hp1 (by omega)
      have hu' : vs[m + 1 - 1]? = some cm.vert := hu
      simp only [hk, if_false, hu', hwi, Option.bind_some, if_true]
      rw [show ck.vert.sp = ck.sp from rfl, show ck.vert.comp = ck.comp from rfl, hpd]; exact hp

/-- The first vertex of the second part is generated with the recomputed density. -/
theorem dens_eq (H : Joined vs A B s t) (h2 : 2 ≤ s + t) (CA : Cached W A) (ht : 0 < t) (vL vE : Option CV) (e : CV)
    (hE : vE = some e) (he : vs[s]? = some e.vert)
    (hL0 : s = 0 → vL = none)
    (hL : ∀ m, s = m + 1 → ∃ l c, vL = some l ∧ A[m]? = some c ∧ vs[m]? = some l.vert ∧ l.wRev = c.wRev ∧ direction (some l.vert) (some e.vert) = some l.wFwd)
    (hc : s = 1 → ∀ v, vs[0]? = some v → isConnectableEndpoint W v.sp = some true) : dens W vs s = newFwd W vL vE := by
  subst hE
  cases s with
  | zero =>
    rw [hL0 rfl]
    simp only [dens, he, Option.bind_eq_bind, Option.bind_some]
    rfl
  | succ m =>
    obtain ⟨l, c, rfl, hcA, hl, hrev, hfwd⟩ := hL m rfl
    simp only [dens, newFwd, hl, he, Option.bind_eq_bind, Option.bind_some, hfwd]
    have hwi : direction (some l.vert) (if m = 0 then none else vs[m - 1]?) = some l.wRev := by
      by_cases hm : m = 0
      · subst hm
        rw [if_pos rfl, hrev, (CA.first c hcA).1]; rfl
      · rw [if_neg hm]
        obtain ⟨k, rfl⟩ : ∃ k, m = k + 1 := ⟨m - 1, by omega⟩
        obtain ⟨ck, u, hck, hu, -, heu⟩ := H.a k (by omega)
        have := heu (by omega)
        subst this
        obtain ⟨c', v, hc', hv, hs', -⟩ := H.a (k + 1) (by omega)
        rw [hcA] at hc'; cases hc'
        rw [hl] at hv; cases hv
        obtain ⟨-, hd⟩ := CA.dir k ck c hck hcA
        rw [show k + 1 - 1 = k from rfl, hu, hrev, ← hd]
        exact dir_congr hs'.2.2 rfl
    rw [hwi]
    simp only [Option.bind_some]
    by_cases hm : m = 0
    · subst hm
      have := hc rfl l.vert hl
      rw [if_pos rfl, this]
      simp only [Option.bind_some, if_true]
      rfl
    · rw [if_neg hm]
      simp only [Option.bind_some, if_true]
      rfl

/-- So is the second one. -/
theorem dens_succ (H : Joined vs A B s t) (h2 : 2 ≤ s + t) (CB : Cached W B) (ht : 2 ≤ t) (vEp vE vL : Option CV) (e ep cB : CV)
    (hE : vE = some e) (he : vs[s]? = some e.vert) (hEp : vEp = some ep) (hep : vs[s + 1]? = some ep.vert)
    (hcB : B[t - 1]? = some cB) (hw : e.wFwd = cB.wRev)
    (hr : direction (some e.vert) (if s = 0 then none else vs[s - 1]?) = some e.wRev)
    (hL : vL = none ↔ s = 0) : dens W vs (s + 1) = newFwdPrev W vEp vE vL := by
  subst hE; subst hEp
  obtain ⟨k, rfl⟩ : ∃ k, t = k + 2 := ⟨t - 2, by omega⟩
  obtain ⟨c', v, hc', hv, hs', -⟩ := H.b (k + 1) (by omega)
  rw [show k + 2 - 1 = k + 1 by omega] at hcB
  rw [hcB] at hc'; cases hc'
  rw [show s + (k + 2) - 1 - (k + 1) = s by omega, he] at hv; cases hv
  obtain ⟨ck, u, hck, hu, hsu, -⟩ := H.b k (by omega)
  rw [show s + (k + 2) - 1 - k = s + 1 by omega, hep] at hu; cases hu
  obtain ⟨-, hd⟩ := CB.dir k ck cB hck hcB
  have hwo : direction (some e.vert) (some ep.vert) = some e.wFwd := by
    rw [hw, ← hd]; exact dir_congr hs'.2.2 hsu.2.2
  simp only [dens, newFwdPrev, he, hep, Option.bind_eq_bind, Option.bind_some, hr, hwo]
  by_cases hs : s = 0
  · subst hs
    rw [hL.mpr rfl]
    simp only [if_true]
    rw [show e.vert.sp = e.sp from rfl]
    cases isConnectableEndpoint W e.sp with
    | none => rfl
    | some b => cases b <;> rfl
  · rw [if_neg hs]
    cases vL with
    | none => exact absurd (hL.mp rfl) hs
    | some l => rfl

/-- The other vertices of the second part are generated with the density cached when that part was sampled in the other direction. -/
theorem dens_gt (H : Joined vs A B s t) (CB : Cached W B) (htB : t ≤ B.length) (j : ℕ) (hj : j + 2 < t) (c : CV) (hc : B[j]? = some c) (hd : c.sp.geom.degenerated = false) :
    dens W vs (s + t - 1 - j) = some c.pdfRev := by
  obtain ⟨i, hi⟩ : ∃ i, s + t - 1 - j = i + 2 := ⟨s + t - 1 - j - 2, by omega⟩
  rw [hi]
  obtain ⟨c', v', hc', hv', hs', -⟩ := H.b j (by omega)
  rw [hc] at hc'; cases hc'
  rw [hi] at hv'
  obtain ⟨c1, v1, hc1, hv1, -, he1⟩ := H.b (j + 1) (by omega)
  have := he1 (by omega)
  subst this
  rw [show s + t - 1 - (j + 1) = i + 1 by omega] at hv1
  obtain ⟨c2, v2, hc2, hv2, hs2, -⟩ := H.b (j + 2) (by omega)
  rw [show s + t - 1 - (j + 2) = i by omega] at hv2
  obtain ⟨p, hp, hp2⟩ := CB.rev j c c1 hc hc1 (by omega) hd
  obtain ⟨-, hrev⟩ := CB.dir j c c1 hc hc1
  obtain ⟨hfwd, -⟩ := CB.dir (j + 1) c1 c2 hc1 hc2
  have h1 : direction (some c1.vert) (some v2) = some c1.wFwd := by rw [← hfwd]; exact dir_congr rfl hs2.2.2
  have h2 : direction (some c1.vert) (some v') = some c1.wRev := by rw [← hrev]; exact dir_congr rfl hs'.2.2
  have hv2' : vs[i + 1 - 1]? = some v2 := hv2
  have hg : v'.sp.geom = c.sp.geom := hs'.2.2
  simp only [dens, hv1, hv', Option.bind_eq_bind, Option.bind_some, hv2', h1, h2, hg, if_neg (Nat.succ_ne_zero i), if_true]
  rw [show c1.vert.sp = c1.sp from rfl, show c1.vert.comp = c1.comp from rfl, hp]; exact hp2

end

/-! ### The full path and its recomputed cache -/

/-- The types of the end vertices. -/
def retype (n i : ℕ) (c : CV) : CV := if i = n - 1 then (if i = 0 then c.asType .light else c).asType .camera else if i = 0 then c.asType .light else c

theorem fullPath_get (L E : List CV) (s t : ℕ) (hs : s ≤ L.length) (ht : t ≤ E.length) (i : ℕ) :
    (fullPath L E s t)[i]? = ((L.take s ++ (E.take t).reverse)[i]?).map (fun c => if s ≤ i then (retype (s + t) i c).flip else retype (s + t) i c) := by
  unfold fullPath
  have hlen : (L.take s ++ (E.take t).reverse).length = s + t := by simp; omega
  simp only [List.getElem?_mapIdx, List.getElem?_modify, List.length_modify, hlen]
  cases h : (L.take s ++ (E.take t).reverse)[i]? with
  | none => simp
  | some c =>
    simp only [Option.map_some, Option.map_eq_map]
    congr 1
    unfold retype
    by_cases h1 : i = s + t - 1
    · by_cases h0 : i = 0
      · rw [if_pos h1, if_pos h0, if_pos h1.symm, if_pos h0.symm]
      · rw [if_pos h1, if_neg h0, if_pos h1.symm, if_neg (Ne.symm h0)]
    · by_cases h0 : i = 0
      · rw [if_neg h1, if_pos h0, if_neg (Ne.symm h1), if_pos h0.symm]
      · rw [if_neg h1, if_neg h0, if_neg (Ne.symm h1), if_neg (Ne.symm h0)]

theorem fullPath_len (L E : List CV) (s t : ℕ) (hs : s ≤ L.length) (ht : t ≤ E.length) : (fullPath L E s t).length = s + t := by
  unfold fullPath; simp; omega

theorem fullPath_L (L E : List CV) (s t : ℕ) (hs : s ≤ L.length) (ht : t ≤ E.length) (i : ℕ) (hi : i < s) (c : CV) (hc : L[i]? = some c) :
    (fullPath L E s t)[i]? = some (retype (s + t) i c) := by
  rw [fullPath_get L E s t hs ht, List.getElem?_append_left (by simp; omega), List.getElem?_take_of_lt hi, hc]
  simp [show ¬ s ≤ i by omega]

theorem fullPath_E (L E : List CV) (s t : ℕ) (hs : s ≤ L.length) (ht : t ≤ E.length) (j : ℕ) (hj : j < t) (c : CV) (hc : E[j]? = some c) :
    (fullPath L E s t)[s + t - 1 - j]? = some (retype (s + t) (s + t - 1 - j) c).flip := by
  rw [fullPath_get L E s t hs ht, List.getElem?_append_right (by simp; omega), List.getElem?_reverse (by simp; omega)]
  have : (E.take t).length - 1 - (s + t - 1 - j - (L.take s).length) = j := by simp; omega
  rw [this, List.getElem?_take_of_lt hj, hc]
  simp [show s ≤ s + t - 1 - j by omega]

theorem retype_same (n i : ℕ) (c : CV) : (retype n i c).vert.SameUpToType c.vert := by
  unfold retype CV.asType SI.asType CV.vert
  split_ifs <;> exact ⟨rfl, rfl, rfl⟩
theorem retype_rest (n i : ℕ) (c : CV) : (retype n i c).wFwd = c.wFwd ∧ (retype n i c).wRev = c.wRev ∧ (retype n i c).pdfFwd = c.pdfFwd ∧ (retype n i c).pdfRev = c.pdfRev := by
  unfold retype CV.asType SI.asType
  split_ifs <;> exact ⟨rfl, rfl, rfl, rfl⟩

theorem idxL (n s : ℕ) (hs : s ≤ n) (k : ℕ) (hk : 0 < k) : idx n ((s : Int) - k) .LE = if s < k then none else some (s - k) := by
  unfold idx index
  by_cases h : s < k
  · rw [if_pos h, if_neg (by omega)]
  · rw [if_neg h, if_pos (by omega), if_pos rfl]
    congr 1; omega
theorem idxE (n s t : ℕ) (hn : n = s + t) (k : ℕ) (hk : 0 < k) : idx n ((t : Int) - k) .EL = if t < k then none else some (s + (k - 1)) := by
  unfold idx index
  by_cases h : t < k
  · rw [if_pos h, if_neg (by omega)]
  · rw [if_neg h, if_pos (by omega), if_neg (show ¬ TransDir.EL = .LE by decide)]
    congr 1; omega

theorem setAt_get (path : List CV) (o : Option ℕ) (f : CV → CV) (j : ℕ) : (setAt path o f)[j]? = (path[j]?).map (fun v => if o = some j then f v else v) := by
  cases o with
  | none => simp [setAt]
  | some i => simp only [setAt, List.getElem?_modify, Option.some.injEq]; rfl

/-- Everything the recomputation does. -/
structure Fixed (W : World) (path P : List CV) (s t : ℕ) : Prop where
  verts : P.map CV.vert = path.map CV.vert
  fwd : ∃ (dL dE : V3 ℝ) (fE fEp rL rLp : ℝ),
    let vL := (if s = 0 then none else path[s - 1]?).map (fun v : CV => { v with wFwd := dL })
    let vE := (if t = 0 then none else path[s]?).map (fun v : CV => { v with wRev := dE })
    let vLp := if s < 2 then none else path[s - 2]?
    let vEp := if t < 2 then none else path[s + 1]?
    direction ((if s = 0 then none else path[s - 1]?).map CV.vert) ((if t = 0 then none else path[s]?).map CV.vert) = some dL ∧
    direction ((if t = 0 then none else path[s]?).map CV.vert) ((if s = 0 then none else path[s - 1]?).map CV.vert) = some dE ∧
    newRev W vL vE = some rL ∧ newFwd W vL vE = some fE ∧ newRevPrev W vLp vL vE = some rLp ∧ newFwdPrev W vEp vE vL = some fEp ∧
    ∀ (i : ℕ) (v : CV), path[i]? = some v → ∃ w : CV, P[i]? = some w ∧
      w.pdfFwd = (if 1 ≤ t ∧ i = s then fE else if 2 ≤ t ∧ i = s + 1 then fEp else v.pdfFwd) ∧
      w.pdfRev = (if s = i + 1 then rL else if s = i + 2 then rLp else v.pdfRev)

set_option maxHeartbeats 1000000 in
theorem fixup_ok (W : World) (path P : List CV) (s t : ℕ) (hn : path.length = s + t) (h : fixup W path s t = some P) : Fixed W path P s t := by
  unfold fixup at h
  have i1 : idx path.length ((s : Int) - 1) .LE = if s = 0 then none else some (s - 1) := by
    have := idxL path.length s (by omega) 1 (by omega)
    simpa using this
  have i2 : idx path.length ((t : Int) - 1) .EL = if t = 0 then none else some s := by
    have := idxE path.length s t hn 1 (by omega)
    simpa using this
  have i3 : idx path.length ((s : Int) - 2) .LE = if s < 2 then none else some (s - 2) := by
    have := idxL path.length s (by omega) 2 (by omega)
    simpa using this
  have i4 : idx path.length ((t : Int) - 2) .EL = if t < 2 then none else some (s + 1) := by
    have := idxE path.length s t hn 2 (by omega)
    simpa using this
  simp only [i1, i2, i3, i4] at h
  have c1 : cvAt path (if s = 0 then none else some (s - 1)) = if s = 0 then none else path[s - 1]? := by split_ifs <;> rfl
  have c2 : cvAt path (if t = 0 then none else some s) = if t = 0 then none else path[s]? := by split_ifs <;> rfl
  have c3 : cvAt path (if s < 2 then none else some (s - 2)) = if s < 2 then none else path[s - 2]? := by split_ifs <;> rfl
  have c4 : cvAt path (if t < 2 then none else some (s + 1)) = if t < 2 then none else path[s + 1]? := by split_ifs <;> rfl
  simp only [c1, c2, c3, c4] at h
  obtain ⟨dL, hdL, h⟩ := bind_some h
  obtain ⟨dE, hdE, h⟩ := bind_some h
  obtain ⟨rL, hrL, h⟩ := bind_some h
  obtain ⟨fE, hfE, h⟩ := bind_some h
  obtain ⟨rLp, hrLp, h⟩ := bind_some h
  obtain ⟨fEp, hfEp, h⟩ := bind_some h
  simp only [Option.pure_def, Option.some.injEq] at h
  have get : ∀ i, P[i]? = (path[i]?).map (fun v =>
      let v1 : CV := if (if s = 0 then none else some (s - 1)) = some i then { v with wFwd := dL, pdfRev := rL } else v
      let v2 : CV := if (if t = 0 then none else some s) = some i then { v1 with wRev := dE, pdfFwd := fE } else v1
      let v3 : CV := if (if s < 2 then none else some (s - 2)) = some i then { v2 with pdfRev := rLp } else v2
      if (if t < 2 then none else some (s + 1)) = some i then { v3 with pdfFwd := fEp } else v3) := by
    intro i
    rw [← h]
    simp only [setAt_get, Option.map_map]
    rfl
  refine ⟨?_, dL, dE, fE, fEp, rL, rLp, hdL, hdE, hrL, hfE, hrLp, hfEp, ?_⟩
  · apply List.ext_getElem?
    intro i
    rw [List.getElem?_map, List.getElem?_map, get, Option.map_map]
    congr 1
    funext v
    simp only [Function.comp]
    unfold CV.vert
    split_ifs <;> rfl
  · intro i v hv
    refine ⟨_, by rw [get, hv]; rfl, ?_, ?_⟩
    · simp only
      by_cases e1 : 1 ≤ t ∧ i = s
      · rw [if_pos e1]
        have a1 : ¬ ((if t < 2 then none else some (s + 1)) = some i) := by split_ifs <;> simp; omega
        have a2 : (if t = 0 then none else some s) = some i := by rw [if_neg (by omega), e1.2]
        rw [if_neg a1, if_pos a2]
        split_ifs <;> rfl
      · rw [if_neg e1]
        have a2 : ¬ ((if t = 0 then none else some s) = some i) := by
          split_ifs with ht0
          · simp
          · simp; intro hh; exact e1 ⟨by omega, hh.symm⟩
        by_cases e2 : 2 ≤ t ∧ i = s + 1
        · rw [if_pos e2, if_pos (by rw [if_neg (by omega), e2.2])]
        · rw [if_neg e2]
          have a1 : ¬ ((if t < 2 then none else some (s + 1)) = some i) := by
            split_ifs with ht0
            · simp
            · simp; intro hh; exact e2 ⟨by omega, hh.symm⟩
          rw [if_neg a1, if_neg a2]
          split_ifs <;> rfl
    · simp only
      by_cases e1 : s = i + 1
      · rw [if_pos e1]
        have a1 : (if s = 0 then none else some (s - 1)) = some i := by rw [if_neg (by omega)]; congr 1; omega
        have a3 : ¬ ((if s < 2 then none else some (s - 2)) = some i) := by split_ifs <;> simp; omega
        rw [if_pos a1, if_neg a3]
        split_ifs <;> rfl
      · rw [if_neg e1]
        have a1 : ¬ ((if s = 0 then none else some (s - 1)) = some i) := by
          split_ifs with h0
          · simp
          · simp; omega
        by_cases e2 : s = i + 2
        · have a3 : (if s < 2 then none else some (s - 2)) = some i := by rw [if_neg (by omega)]; congr 1; omega
          rw [if_pos e2, if_pos a3]
          split_ifs <;> rfl
        · have a3 : ¬ ((if s < 2 then none else some (s - 2)) = some i) := by
            split_ifs with h0
            · simp
            · simp; omega
          rw [if_neg e2, if_neg a1, if_neg a3]
          split_ifs <;> rfl

/-! ### The recomputed cache holds the densities of the full path -/

/-- What is known about the two subpaths: their first vertices are endpoints, everything else was hit by a ray. -/
structure Subpath (W : World) (A : List CV) (k : Kind) : Prop extends Cached W A where
  kind : ∀ c, A[0]? = some c → c.sp.kind = k
  solid : ∀ i c, 0 < i → A[i]? = some c → c.sp.geom.degenerated = false

theorem asType_self {c : CV} {k : Kind} (h : c.sp.kind = k) : c.asType k = c := by
  unfold CV.asType SI.asType; rw [← h]

theorem flip_vert (c : CV) : c.flip.vert = c.vert := rfl
theorem flip_flip (c : CV) : c.flip.flip = c := rfl

theorem joined_full {W : World} {L E : List CV} {s t : ℕ} (hs : s ≤ L.length) (ht : t ≤ E.length) (h2 : 2 ≤ s + t) (HL : Subpath W L .light) (HE : Subpath W E .camera) :
    Joined ((fullPath L E s t).map CV.vert) L E s t := by
  refine ⟨by rw [List.length_map, fullPath_len L E s t hs ht], ?_, ?_⟩
  · intro i hi
    have hc : L[i]? = some L[i] := List.getElem?_eq_getElem (by omega)
    refine ⟨L[i], (retype (s + t) i L[i]).vert, hc, ?_, retype_same _ _ _, ?_⟩
    · rw [List.getElem?_map, fullPath_L L E s t hs ht i hi _ hc]; rfl
    · intro hlt
      unfold retype
      rw [if_neg (by omega)]
      split_ifs with h0
      · subst h0; rw [asType_self (HL.kind _ hc)]
      · rfl
  · intro j hj
    have hc : E[j]? = some E[j] := List.getElem?_eq_getElem (by omega)
    refine ⟨E[j], (retype (s + t) (s + t - 1 - j) E[j]).vert, hc, ?_, retype_same _ _ _, ?_⟩
    · rw [List.getElem?_map, fullPath_E L E s t hs ht j hj _ hc]; rfl
    · intro hlt
      unfold retype
      rw [if_neg (show ¬ s + t - 1 - j = 0 by omega)]
      split_ifs with h0
      · have : j = 0 := by omega
        subst this; rw [asType_self (HE.kind _ hc)]
      · rfl

theorem newRev_flip (W : World) (a b : Option CV) : newRev W a b = newFwd W (b.map CV.flip) (a.map CV.flip) := by
  cases a <;> cases b <;> rfl
theorem newRevPrev_flip (W : World) (a b c : Option CV) : newRevPrev W a b c = newFwdPrev W (a.map CV.flip) (b.map CV.flip) (c.map CV.flip) := by
  cases a <;> cases b <;> cases c <;> rfl

/-- Samplable strategies connect only to endpoints that can be connected to. -/
theorem samplable_conn {W : World} {vs : List Vert} {s t : ℕ} (hn : vs.length = s + t) (hs : 0 < s) (ht : 0 < t) (h : isSamplable W vs s = some true) :
    (s = 1 → ∀ v, vs[0]? = some v → isConnectableEndpoint W v.sp = some true) ∧ (t = 1 → ∀ v, vs[s]? = some v → isConnectableEndpoint W v.sp = some true) := by
  unfold isSamplable at h
  rw [if_neg (by omega), if_neg (by omega)] at h
  obtain ⟨vL, hvL, h⟩ := bind_some h
  obtain ⟨vE, hvE, h⟩ := bind_some h
  have gL : vs[s - 1]? = some vL := by
    unfold vertexAt index at hvL
    rw [if_pos (by omega), if_pos rfl] at hvL
    rw [← hvL]; congr 1; omega
  have gE : vs[s]? = some vE := by
    unfold vertexAt index at hvE
    rw [if_pos (by omega), if_neg (show ¬ TransDir.EL = .LE by decide)] at hvE
    rw [← hvE]; congr 1; omega
  have ht1 : ((vs.length : Int) - s = 1) ↔ t = 1 := by omega
  simp only [ht1] at h
  constructor
  · intro h1 v hv
    subst h1
    rw [show (1 : ℕ) - 1 = 0 from rfl, hv] at gL; cases gL
    rw [if_pos rfl] at h
    obtain ⟨c, hc, h⟩ := bind_some h
    cases c
    · simp at h
    · exact hc
  · intro h1 v hv
    rw [hv] at gE; cases gE
    have fin : ∀ f : Bool → Option Bool, ((do
        let cE ← isConnectableEndpoint W vE.sp
        if (!cE) = true then pure false else f cE) = some true) → isConnectableEndpoint W vE.sp = some true := by
      intro f hf
      obtain ⟨c, hc, hf⟩ := bind_some hf
      cases c
      · simp at hf
      · exact hc
    by_cases hs1 : s = 1
    · rw [if_pos hs1] at h
      obtain ⟨c, hc, h⟩ := bind_some h
      cases c
      · simp at h
      · simp only [Bool.not_true, Bool.false_eq_true, if_false, h1, if_true] at h
        exact fin _ h
    · rw [if_neg hs1] at h
      simp only [Option.bind_eq_bind, Option.bind_some, Bool.not_true, Bool.false_eq_true, if_false, h1, if_true] at h
      exact fin _ h

theorem cache_ok {W : World} {L E : List CV} {s t : ℕ} (hs : s ≤ L.length) (ht : t ≤ E.length) (h2 : 2 ≤ s + t) (HL : Subpath W L .light) (HE : Subpath W E .camera)
    (P : List CV) (hP : fixup W (fullPath L E s t) s t = some P) (hok : isSamplable W (P.map CV.vert) s = some true) (i : ℕ) (w : CV) (hw : P[i]? = some w) :
    (i + 1 < s + t ∨ w.sp.geom.degenerated = false → dens W (P.map CV.vert) i = some w.pdfFwd) ∧
    (0 < i ∨ w.sp.geom.degenerated = false → dens W (P.map CV.vert).reverse (s + t - 1 - i) = some w.pdfRev) := by
  have hlen := fullPath_len L E s t hs ht
  obtain ⟨hv, dL, dE, fE, fEp, rL, rLp, hdL, hdE, hrL, hfE, hrLp, hfEp, hval⟩ := fixup_ok W _ P s t hlen hP
  have J := joined_full hs ht h2 HL HE
  have JR := J.reverse
  rw [hv] at hok ⊢
  have hPlen : P.length = s + t := by
    have := congrArg List.length hv
    simpa [hlen] using this
  have hi : i < s + t := by
    have := (List.getElem?_eq_some_iff.mp hw).1
    omega
  -- the vertex has the same interaction in both
  obtain ⟨v, hvi⟩ : ∃ v, (fullPath L E s t)[i]? = some v := ⟨_, List.getElem?_eq_getElem (by omega)⟩
  have hwv : w.vert = v.vert := by
    have := congrArg (fun l => l[i]?) hv
    simpa [hw, hvi] using this
  have hwsp : w.sp = v.sp := congrArg Vert.sp hwv
  obtain ⟨w', hw', hfwd, hrev⟩ := hval i v hvi
  rw [hw] at hw'; cases hw'
  rw [hfwd, hrev, hwsp]
  have hconn : 0 < s → 0 < t → _ := fun a b => samplable_conn (s := s) (t := t) J.len a b hok
  have hvget : ∀ k, ((fullPath L E s t).map CV.vert)[k]? = ((fullPath L E s t)[k]?).map CV.vert := fun k => by rw [List.getElem?_map]
  have hrget : ∀ k, k < s + t → ((fullPath L E s t).map CV.vert).reverse[k]? = ((fullPath L E s t)[s + t - 1 - k]?).map CV.vert := fun k hk => by
    rw [List.getElem?_reverse (by rw [J.len]; exact hk), J.len, hvget]
  -- the two vertices at the connection
  have getL : ∀ m, s = m + 1 → ∃ c, L[m]? = some c ∧ (fullPath L E s t)[m]? = some (retype (s + t) m c) := fun m hm => by
    have hc : L[m]? = some L[m] := List.getElem?_eq_getElem (by omega)
    exact ⟨_, hc, fullPath_L L E s t hs ht m (by omega) _ hc⟩
  have getE : ∀ m, t = m + 1 → ∃ c, E[m]? = some c ∧ (fullPath L E s t)[s]? = some (retype (s + t) s c).flip := fun m hm => by
    have hc : E[m]? = some E[m] := List.getElem?_eq_getElem (by omega)
    have := fullPath_E L E s t hs ht m (by omega) _ hc
    rw [show s + t - 1 - m = s by omega] at this
    exact ⟨_, hc, this⟩
  constructor
  · intro hdg
    rcases lt_trichotomy i s with his | his | his
    · -- a vertex of the light subpath
      rw [if_neg (by omega), if_neg (by omega)]
      have hc : L[i]? = some L[i] := List.getElem?_eq_getElem (by omega)
      have := fullPath_L L E s t hs ht i his _ hc
      rw [hvi] at this; cases this
      rw [(retype_rest (s + t) i L[i]).2.2.1]
      exact dens_lt J h2 HL.toCached i his _ hc
    · -- the first vertex of the eye subpath
      subst his
      rw [if_pos ⟨by omega, rfl⟩, ← hfE]
      obtain ⟨m, hm⟩ : ∃ m, t = m + 1 := ⟨t - 1, by omega⟩
      refine dens_eq J h2 HL.toCached (by omega) _ _ { v with wRev := dE } ?_ ?_ ?_ ?_ ?_
      · rw [if_neg (by omega), hvi]; rfl
      · rw [hvget, hvi]; rfl
      · intro h0; rw [if_pos h0]; rfl
      · intro m hm
        obtain ⟨c, hc, hp⟩ := getL m hm
        refine ⟨{ retype (i + t) m c with wFwd := dL }, c, ?_, hc, ?_, (retype_rest _ m c).2.1, ?_⟩
        · rw [if_neg (by omega), show i - 1 = m by omega, hp]; rfl
        · rw [hvget, hp]; rfl
        · rw [if_neg (by omega), if_neg (by omega), show i - 1 = m by omega, hp, hvi] at hdL
          exact hdL
      · intro h1; exact (hconn (by omega) (by omega)).1 h1
    · rw [if_neg (by omega)]
      by_cases his' : i = s + 1
      · subst his'
        rw [if_pos ⟨by omega, rfl⟩, ← hfEp]
        obtain ⟨c, hc, hp⟩ := getE (t - 1) (by omega)
        refine dens_succ J h2 HE.toCached (by omega) _ _ _ { (retype (s + t) s c).flip with wRev := dE } v c ?_ ?_ ?_ ?_ hc ?_ ?_ ?_
        · rw [if_neg (by omega), hp]; rfl
        · rw [hvget, hp]; rfl
        · rw [if_neg (by omega), hvi]
        · rw [hvget, hvi]; rfl
        · exact (retype_rest _ s c).2.1
        · rw [if_neg (show ¬ t = 0 by omega), hp] at hdE
          rw [← hdE]
          by_cases h0 : s = 0
          · rw [if_pos h0, if_pos h0]; rfl
          · rw [if_neg h0, if_neg h0, hvget]; rfl
        · by_cases h0 : s = 0
          · simp [h0]
          · obtain ⟨c, hc, hp⟩ := getL (s - 1) (by omega)
            simp [h0, hp]
      · rw [if_neg (by omega)]
        obtain ⟨j, hj⟩ : ∃ j, i = s + t - 1 - j ∧ j + 2 < t := ⟨s + t - 1 - i, by omega, by omega⟩
        have hc : E[j]? = some E[j] := List.getElem?_eq_getElem (by omega)
        have hp := fullPath_E L E s t hs ht j (by omega) _ hc
        rw [← hj.1, hvi] at hp; cases hp
        have hg : E[j].sp.geom.degenerated = false := by
          rcases hdg with h | h
          · exact HE.solid j _ (by omega) hc
          · rw [← h]; exact congrArg _ (retype_same (s + t) i E[j]).2.2.symm
        have hd := dens_gt J HE.toCached ht j hj.2 _ hc hg
        rw [← hj.1] at hd
        rw [hd]
        exact congrArg some (retype_rest (s + t) i E[j]).2.2.2.symm
  · intro hdg
    rcases Nat.lt_or_ge i s with his | his
    · by_cases e1 : s = i + 1
      · -- the last vertex of the light subpath
        subst e1
        rw [if_pos rfl, ← hrL, newRev_flip, show i + 1 + t - 1 - i = t by omega]
        refine dens_eq JR (by omega) HE.toCached (by omega) _ _ (CV.flip { v with wFwd := dL }) ?_ ?_ ?_ ?_ ?_
        · rw [if_neg (by omega), show i + 1 - 1 = i from rfl, hvi]; rfl
        · rw [hrget t (by omega), show i + 1 + t - 1 - t = i by omega, hvi]; rfl
        · intro h0; rw [if_pos h0]; rfl
        · intro m hm
          obtain ⟨c, hc, hp⟩ := getE m hm
          refine ⟨CV.flip { (retype (i + 1 + t) (i + 1) c).flip with wRev := dE }, c, ?_, hc, ?_, (retype_rest _ _ c).2.1, ?_⟩
          · rw [if_neg (by omega), hp]; rfl
          · rw [hrget m (by omega), show i + 1 + t - 1 - m = i + 1 by omega, hp]; rfl
          · rw [if_neg (show ¬ t = 0 by omega), if_neg (by omega), hp, show i + 1 - 1 = i from rfl, hvi] at hdE
            exact hdE
        · intro h1 u hu
          rw [hrget 0 (by omega), show i + 1 + t - 1 - 0 = i + 1 by omega] at hu
          exact (hconn (by omega) (by omega)).2 h1 u (by rw [hvget]; exact hu)
      · rw [if_neg e1]
        by_cases e2 : s = i + 2
        · subst e2
          rw [if_pos rfl, ← hrLp, newRevPrev_flip, show i + 2 + t - 1 - i = t + 1 by omega]
          obtain ⟨c, hc, hp⟩ := getL (i + 1) (by omega)
          refine dens_succ JR (by omega) HL.toCached (by omega) _ _ _ (CV.flip { retype (i + 2 + t) (i + 1) c with wFwd := dL }) v.flip c ?_ ?_ ?_ ?_ hc ?_ ?_ ?_
          · rw [if_neg (by omega), show i + 2 - 1 = i + 1 from rfl, hp]; rfl
          · rw [hrget t (by omega), show i + 2 + t - 1 - t = i + 1 by omega, hp]; rfl
          · rw [if_neg (by omega), show i + 2 - 2 = i from rfl, hvi]; rfl
          · rw [hrget (t + 1) (by omega), show i + 2 + t - 1 - (t + 1) = i by omega, hvi]; rfl
          · exact (retype_rest _ _ c).2.1
          · rw [if_neg (show ¬ i + 2 = 0 by omega), show i + 2 - 1 = i + 1 from rfl, hp] at hdL
            rw [show (CV.flip { retype (i + 2 + t) (i + 1) c with wFwd := dL }).wRev = dL from rfl, ← hdL]
            by_cases h0 : t = 0
            · rw [if_pos h0, if_pos h0]; rfl
            · rw [if_neg h0, if_neg h0, hrget (t - 1) (by omega), show i + 2 + t - 1 - (t - 1) = i + 2 by omega]; rfl
          · by_cases h0 : t = 0
            · simp [h0]
            · obtain ⟨c, hc, hp⟩ := getE (t - 1) (by omega)
              simp [h0, hp]
        · rw [if_neg e2]
          have hc : L[i]? = some L[i] := List.getElem?_eq_getElem (by omega)
          have hp := fullPath_L L E s t hs ht i his _ hc
          rw [hvi] at hp; cases hp
          have hg : L[i].sp.geom.degenerated = false := by
            rcases hdg with h | h
            · exact HL.solid i _ h hc
            · rw [← h]; exact congrArg _ (retype_same (s + t) i L[i]).2.2.symm
          rw [show s + t - 1 - i = t + s - 1 - i by omega, dens_gt JR HL.toCached hs i (by omega) _ hc hg]
          exact congrArg some (retype_rest (s + t) i L[i]).2.2.2.symm
    · rw [if_neg (by omega), if_neg (by omega)]
      obtain ⟨j, hj⟩ : ∃ j, i = s + t - 1 - j ∧ j < t := ⟨s + t - 1 - i, by omega, by omega⟩
      have hc : E[j]? = some E[j] := List.getElem?_eq_getElem (by omega)
      have hp := fullPath_E L E s t hs ht j (by omega) _ hc
      rw [← hj.1, hvi] at hp; cases hp
      rw [show s + t - 1 - i = j by omega, dens_lt JR (by omega) HE.toCached j (by omega) _ hc]
      exact congrArg some (retype_rest (s + t) i E[j]).2.2.1.symm

end LM.Path
