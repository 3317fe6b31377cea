import Verif.Props.C51_Opt
/-
  C51: sampling a subpath fills its cache as the weight computation expects.
-/
namespace LM.Path
open LM LM.Surface LM.Material LM.Light LM.Volume

/-- Scene::intersect returns points on the ray, or a point at infinity seen from the ray direction; never a point with a degenerate geometry. -/
def HitsOnRay (isect : V3 ℝ → V3 ℝ → Option SI) : Prop :=
  ∀ o d h, isect o d = some h → h.geom.degenerated = false ∧ (h.geom.infinite = true → h.geom.wo = -d) ∧ (h.geom.infinite = false → ∃ r : ℝ, 0 < r ∧ h.geom.p = o + r • d)

/-- The samplers return unit directions; primary rays start on an endpoint of the given kind and, if it is at infinity, in its direction. -/
structure StepOk (k : Kind) (a : OptStep) : Prop where
  start : ∀ sp wo C, a.start = .ok sp wo C → sp.kind = k ∧ V3.dot wo wo = 1 ∧ (sp.geom.infinite = true → sp.geom.wo = wo)
  dir : ∀ sp wi c wo C, a.dir sp wi c = .ok wo C → V3.dot wo wo = 1

theorem normalize_smul {d : V3 ℝ} (hd : V3.dot d d = 1) {r : ℝ} (hr : 0 < r) : Material.normalize (r • d) = some d := by
  have e : V3.dot (r • d) (r • d) = r * r := by
    have : V3.dot (r • d) (r • d) = r * r * V3.dot d d := by simp [V3.dot]; ring
    rw [this, hd, mul_one]
  unfold Material.normalize
  rw [e, if_neg (mul_pos hr hr).ne', Real.sqrt_mul_self hr.le]
  congr 1
  ext <;> simp <;> field_simp

/-- The directions between a point and what a ray from it hits. -/
theorem hit_dirs {isect : V3 ℝ → V3 ℝ → Option SI} (hi : HitsOnRay isect) {v h : Vert} {wo : V3 ℝ} (hu : V3.dot wo wo = 1) (hinf : v.sp.geom.infinite = true → v.sp.geom.wo = wo)
    (hh : isect v.sp.geom.p wo = some h.sp) (hne : ¬ (v.sp.geom.infinite = true ∧ h.sp.geom.infinite = true)) :
    direction (some v) (some h) = some wo ∧ direction (some h) (some v) = some (-wo) := by
  obtain ⟨-, h1, h2⟩ := hi _ _ _ hh
  unfold direction
  cases e1 : v.sp.geom.infinite
  · cases e2 : h.sp.geom.infinite
    · obtain ⟨r, hr, hp⟩ := h2 e2
      have a1 : h.sp.geom.p - v.sp.geom.p = r • wo := by rw [hp]; ext <;> simp
      have a2 : v.sp.geom.p - h.sp.geom.p = r • (-wo) := by rw [hp]; ext <;> simp
      have hu' : V3.dot (-wo) (-wo) = 1 := by rw [← hu]; simp [V3.dot]
      simp only [e1, e2, Bool.and_false, Bool.false_eq_true, if_false, a1, a2]
      exact ⟨normalize_smul hu hr, normalize_smul hu' hr⟩
    · have := h1 e2
      simp [e1, e2, this]
  · cases e2 : h.sp.geom.infinite
    · have := hinf e1
      simp [e1, e2, this]
    · exact absurd ⟨e1, e2⟩ hne

/-- Invariant at the head of the loop, once the path is not empty. -/
structure Good (W : World) (A : List CV) (k : Kind) : Prop extends Subpath W A k where
  two : 2 ≤ A.length
  last : ∀ v, A[A.length - 1]? = some v → v.sp.geom.infinite = false

/-- One more direction is sampled at the last vertex v; u is the vertex before. -/
theorem upd_get {A : List CV} (h2 : 2 ≤ A.length) (u v : CV) (i : ℕ) (x : CV) (hx : ((A.set (A.length - 1) v).set (A.length - 2) u)[i]? = some x) :
    (i + 2 < A.length ∧ A[i]? = some x) ∨ (i + 2 = A.length ∧ x = u) ∨ (i + 1 = A.length ∧ x = v) := by
  rw [List.getElem?_set] at hx
  split at hx
  · next h =>
    split at hx
    · cases hx; exact .inr (.inl ⟨by omega, rfl⟩)
    · cases hx
  · next h =>
    rw [List.getElem?_set] at hx
    split at hx
    · split at hx
      · cases hx; exact .inr (.inr ⟨by omega, rfl⟩)
      · cases hx
    · exact .inl ⟨by have := (List.getElem?_eq_some_iff.mp hx).1; omega, hx⟩

section
variable {W : World} {A : List CV} {k : Kind} {u v : CV} {wo : V3 ℝ} {rev : ℝ}

theorem Good.upd (G : Good W A k) (hu : A[A.length - 2]? = some u) (hv : A[A.length - 1]? = some v) :
    Subpath W ((A.set (A.length - 1) { v with wFwd := wo }).set (A.length - 2) { u with pdfRev := rev }) k := by
  have h2 := G.two
  have at2 : ∀ i, i + 2 = A.length → A[i]? = some u := fun i hi => by rw [← hu]; congr 1; omega
  have at1 : ∀ i, i + 1 = A.length → A[i]? = some v := fun i hi => by rw [← hv]; congr 1; omega
  refine ⟨⟨?_, ?_, ?_, ?_⟩, ?_, ?_⟩
  · intro x hx
    rcases upd_get h2 _ _ _ _ hx with ⟨-, h⟩ | ⟨hi, rfl⟩ | ⟨hi, -⟩
    · exact G.first x h
    · exact G.first u (at2 0 hi)
    · omega
  · intro i x x' hx hx'
    rcases upd_get h2 _ _ _ _ hx with ⟨hi, h⟩ | ⟨hi, rfl⟩ | ⟨hi, rfl⟩ <;> rcases upd_get h2 _ _ _ _ hx' with ⟨hi', h'⟩ | ⟨hi', rfl⟩ | ⟨hi', rfl⟩ <;> try omega
    · exact G.dir i x x' h h'
    · exact G.dir i x u h (at2 _ hi')
    · exact G.dir i u v (at2 i hi) (at1 _ hi')
  · intro i x x' hx hx'
    rcases upd_get h2 _ _ _ _ hx with ⟨hi, h⟩ | ⟨hi, rfl⟩ | ⟨hi, rfl⟩ <;> rcases upd_get h2 _ _ _ _ hx' with ⟨hi', h'⟩ | ⟨hi', rfl⟩ | ⟨hi', rfl⟩ <;> try omega
    · exact G.fwd i x x' h h'
    · exact G.fwd i x u h (at2 _ hi')
    · exact G.fwd i u v (at2 i hi) (at1 _ hi')
  · intro i x x' hx hx' hlt hd
    rw [List.length_set, List.length_set] at hlt
    rcases upd_get h2 _ _ _ _ hx with ⟨hi, h⟩ | ⟨hi, rfl⟩ | ⟨hi, rfl⟩ <;> rcases upd_get h2 _ _ _ _ hx' with ⟨hi', h'⟩ | ⟨hi', rfl⟩ | ⟨hi', rfl⟩ <;> try omega
    · exact G.rev i x x' h h' hlt hd
    · exact G.rev i x u h (at2 _ hi') hlt hd
  · intro x hx
    rcases upd_get h2 _ _ _ _ hx with ⟨-, h⟩ | ⟨hi, rfl⟩ | ⟨hi, -⟩
    · exact G.kind x h
    · exact G.kind u (at2 0 hi)
    · omega
  · intro i x h0 hx
    rcases upd_get h2 _ _ _ _ hx with ⟨-, h⟩ | ⟨hi, rfl⟩ | ⟨hi, rfl⟩
    · exact G.solid i x h0 h
    · exact G.solid i u h0 (at2 _ hi)
    · exact G.solid i v h0 (at1 _ hi)

/-- A vertex is added behind v. -/
theorem Subpath.push (S : Subpath W A k) (h2 : 2 ≤ A.length) (hu : A[A.length - 2]? = some u) (hv : A[A.length - 1]? = some v) (h : CV) (next : ℝ)
    (hd : direction (some v.vert) (some h.vert) = some v.wFwd ∧ direction (some h.vert) (some v.vert) = some h.wRev)
    (hp : convertToArea next v.sp.geom h.sp.geom = some h.pdfFwd) (hn : pdfDirection W v.sp v.wRev v.wFwd v.comp false = some next)
    (hr : u.sp.geom.degenerated = false → ∃ p, pdfDirection W v.sp v.wFwd v.wRev v.comp false = some p ∧ convertToArea p v.sp.geom u.sp.geom = some u.pdfRev)
    (hs : h.sp.geom.degenerated = false) : Subpath W (A ++ [h]) k := by
  have get : ∀ i x, (A ++ [h])[i]? = some x → (i < A.length ∧ A[i]? = some x) ∨ (i = A.length ∧ x = h) := by
    intro i x hx
    rcases Nat.lt_or_ge i A.length with hi | hi
    · rw [List.getElem?_append_left hi] at hx; exact .inl ⟨hi, hx⟩
    · rw [List.getElem?_append_right hi] at hx
      have hi2 := (List.getElem?_eq_some_iff.mp hx).1
      have : i - A.length = 0 := by simp at hi2; omega
      rw [this] at hx
      simp at hx
      exact .inr ⟨by omega, hx.symm⟩
  have isv : ∀ i x, i + 1 = A.length → A[i]? = some x → x = v := fun i x hi hx => by
    rw [show i = A.length - 1 by omega, hv] at hx; cases hx; rfl
  have isu : ∀ i x, i + 2 = A.length → A[i]? = some x → x = u := fun i x hi hx => by
    rw [show i = A.length - 2 by omega, hu] at hx; cases hx; rfl
  refine ⟨⟨?_, ?_, ?_, ?_⟩, ?_, ?_⟩
  · intro x hx
    rcases get _ _ hx with ⟨-, h⟩ | ⟨hi, -⟩
    · exact S.first x h
    · omega
  · intro i x x' hx hx'
    rcases get _ _ hx with ⟨hi, h⟩ | ⟨hi, -⟩ <;> rcases get _ _ hx' with ⟨hi', h'⟩ | ⟨hi', rfl⟩ <;> try omega
    · exact S.dir i x x' h h'
    · rw [isv i x hi' h]; exact hd
  · intro i x x' hx hx'
    rcases get _ _ hx with ⟨hi, h⟩ | ⟨hi, -⟩ <;> rcases get _ _ hx' with ⟨hi', h'⟩ | ⟨hi', rfl⟩ <;> try omega
    · exact S.fwd i x x' h h'
    · rw [isv i x hi' h]; exact ⟨next, hp, fun _ => hn, fun h0 => absurd h0 (by omega)⟩
  · intro i x x' hx hx' hlt hdg
    rw [List.length_append, List.length_singleton] at hlt
    rcases get _ _ hx with ⟨hi, h⟩ | ⟨hi, -⟩ <;> rcases get _ _ hx' with ⟨hi', h'⟩ | ⟨hi', rfl⟩ <;> try omega
    by_cases hl : i + 2 < A.length
    · exact S.rev i x x' h h' hl hdg
    · have e := isu i x (by omega) h
      subst e
      rw [isv (i + 1) x' (by omega) h']
      exact hr hdg
  · intro x hx
    rcases get _ _ hx with ⟨-, h⟩ | ⟨hi, -⟩
    · exact S.kind x h
    · omega
  · intro i x h0 hx
    rcases get _ _ hx with ⟨-, h⟩ | ⟨hi, rfl⟩
    · exact S.solid i x h0 h
    · exact hs
end

/-- A path of one or two vertices. -/
theorem start_one {W : World} {c : CV} {k : Kind} (hk : c.sp.kind = k) (h0 : c.wRev = 0) (hp : startPdf W c.sp = some c.pdfFwd) : Subpath W [c] k := by
  refine ⟨⟨?_, ?_, ?_, ?_⟩, ?_, ?_⟩
  · intro x hx; simp at hx; subst hx; exact ⟨h0, hp⟩
  · intro i x x' _ hx'; simp at hx'
  · intro i x x' _ hx'; simp at hx'
  · intro i x x' _ hx'; simp at hx'
  · intro x hx; simp at hx; subst hx; exact hk
  · intro i x hi hx; have := (List.getElem?_eq_some_iff.mp hx).1; simp at this; omega

theorem start_two {W : World} {c h : CV} {k : Kind} (hk : c.sp.kind = k) (h0 : c.wRev = 0) (hp : startPdf W c.sp = some c.pdfFwd)
    (hd : direction (some c.vert) (some h.vert) = some c.wFwd ∧ direction (some h.vert) (some c.vert) = some h.wRev) (next : ℝ)
    (hpa : convertToArea next c.sp.geom h.sp.geom = some h.pdfFwd) (conn : Bool) (hc : isConnectableEndpoint W c.sp = some conn)
    (hn : (if conn then pdfDirection W c.sp 0 c.wFwd c.comp false else pdfPrimaryRay W c.sp c.wFwd false) = some next)
    (hs : h.sp.geom.degenerated = false) : Subpath W [c, h] k := by
  have only : ∀ i (x x' : CV), [c, h][i]? = some x → [c, h][i + 1]? = some x' → i = 0 ∧ x = c ∧ x' = h := by
    intro i x x' hx hx'
    have := (List.getElem?_eq_some_iff.mp hx').1
    have hi : i = 0 := by simp at this; omega
    subst hi
    simp at hx hx'
    exact ⟨rfl, hx.symm, hx'.symm⟩
  refine ⟨⟨?_, ?_, ?_, ?_⟩, ?_, ?_⟩
  · intro x hx; simp at hx; subst hx; exact ⟨h0, hp⟩
  · intro i x x' hx hx'
    obtain ⟨-, rfl, rfl⟩ := only i x x' hx hx'
    exact hd
  · intro i x x' hx hx'
    obtain ⟨rfl, rfl, rfl⟩ := only i x x' hx hx'
    exact ⟨next, hpa, fun h => absurd h (by omega), fun _ => ⟨conn, hc, hn⟩⟩
  · intro i x x' hx hx' hlt; simp at hlt
  · intro x hx; simp at hx; subst hx; exact hk
  · intro i x hi hx
    have := (List.getElem?_eq_some_iff.mp hx).1
    have e : i = 1 := by simp at this; omega
    subst e; simp at hx; subst hx; exact hs

/-- What a direction sampled at the last vertex v changes; u is the vertex before. -/
theorem optRay_next {W : World} {junk : ℝ} {a : OptStep} {A : List CV} {thr : V3 ℝ} {u v : CV} (h2 : 2 ≤ A.length) (hu : A[A.length - 2]? = some u) (hv : A[A.length - 1]? = some v)
    {o : Option OptSt} (h : optRay W junk a A thr = some o) : (o = none ∧ a.dir v.sp v.wRev v.comp = .fail) ∨ ∃ wo C rev next, a.dir v.sp v.wRev v.comp = .ok wo C ∧
      (u.sp.geom.degenerated = false → ∃ p, pdfDirection W v.sp wo v.wRev v.comp false = some p ∧ convertToArea p v.sp.geom u.sp.geom = some rev) ∧
      pdfDirection W v.sp v.wRev wo v.comp false = some next ∧
      o = some ⟨(A.set (A.length - 1) { v with wFwd := wo }).set (A.length - 2) { u with pdfRev := rev }, next, thr * C⟩ := by
  unfold optRay at h
  rw [if_neg (by omega), hv] at h
  simp only at h
  cases hdir : a.dir v.sp v.wRev v.comp with
  | undef => rw [hdir] at h; cases h
  | fail => rw [hdir] at h; cases h; exact .inl ⟨rfl, rfl⟩
  | ok wo C =>
    rw [hdir] at h
    simp only [hu, Option.bind_eq_bind, Option.bind_some] at h
    refine .inr ⟨wo, C, ?_⟩
    cases hdg : u.sp.geom.degenerated with
    | true =>
      rw [hdg] at h
      simp only [if_true] at h
      obtain ⟨next, hn, h⟩ := bind_some h
      simp only [Option.pure_def, Option.some.injEq] at h
      exact ⟨1, next, rfl, fun h => by simp at h, hn, h.symm⟩
    | false =>
      rw [hdg] at h
      simp only [Bool.false_eq_true, if_false] at h
      obtain ⟨rev, hr, h⟩ := bind_some h
      obtain ⟨next, hn, h⟩ := bind_some h
      simp only [Option.pure_def, Option.some.injEq] at h
      obtain ⟨p, hp, hr⟩ := bind_some hr
      exact ⟨rev, next, rfl, fun _ => ⟨p, hp, hr⟩, hn, h.symm⟩

/-- The two vertices a sampled direction changes. -/
theorem upd_ends {A : List CV} (h2 : 2 ≤ A.length) (u v : CV) :
    ((A.set (A.length - 1) v).set (A.length - 2) u).length = A.length ∧ ((A.set (A.length - 1) v).set (A.length - 2) u)[A.length - 1]? = some v ∧
    ((A.set (A.length - 1) v).set (A.length - 2) u)[A.length - 2]? = some u := by
  refine ⟨by simp, ?_, ?_⟩
  · rw [List.getElem?_set_ne (by omega), List.getElem?_set_self (by omega)]
  · rw [List.getElem?_set_self (by simp; omega)]

/-- The primary ray. -/
theorem optRay_first {W : World} {junk : ℝ} {a : OptStep} {thr : V3 ℝ} {o : Option OptSt} (h : optRay W junk a [] thr = some o) :
    (o = none ∧ a.start = .fail) ∨ ∃ sp wo C p al conn next, a.start = .ok sp wo C ∧ startPdf W sp = some p ∧ divF 1 p = some al ∧ isConnectableEndpoint W sp = some conn ∧
      (if conn then pdfDirection W sp 0 wo 0 false else pdfPrimaryRay W sp wo false) = some next ∧ o = some ⟨[⟨sp, 0, wo, 0, p, junk, V3.all al⟩], next, C⟩ := by
  unfold optRay at h
  rw [if_pos (show ([] : List CV).length = 0 from rfl)] at h
  cases hs : a.start with
  | undef => rw [hs] at h; cases h
  | fail => rw [hs] at h; cases h; exact .inl ⟨rfl, rfl⟩
  | ok sp wo C =>
    rw [hs] at h
    simp only at h
    obtain ⟨p, hp, h⟩ := bind_some h
    obtain ⟨al, hal, h⟩ := bind_some h
    obtain ⟨conn, hconn, h⟩ := bind_some h
    refine .inr ⟨sp, wo, C, p, al, conn, ?_⟩
    cases conn
    · simp only [Bool.false_eq_true, if_false] at h ⊢
      obtain ⟨next, hn, h⟩ := bind_some h
      simp only [Option.pure_def, Option.some.injEq] at h
      exact ⟨next, trivial, hp, hal, hconn, hn, h.symm⟩
    · simp only [if_true] at h ⊢
      obtain ⟨next, hn, h⟩ := bind_some h
      simp only [Option.pure_def, Option.some.injEq] at h
      exact ⟨next, trivial, hp, hal, hconn, hn, h.symm⟩

/-- The walk from a non-empty path. -/
theorem walk_good {W : World} {isect : V3 ℝ → V3 ℝ → Option SI} (hi : HitsOnRay isect) {junk : ℝ} {junkW : V3 ℝ} {maxVerts : ℤ} {k : Kind} {st : ℕ → OptStep} (hst : ∀ n, StepOk k (st n)) :
    ∀ (m : ℕ) (A B : List CV) (thr : V3 ℝ), Good W A k → optWalk W isect junk junkW maxVerts st m A thr = some B → Subpath W B k := by
  intro m
  induction m with
  | zero =>
    intro A B thr G h
    unfold optWalk at h
    cases h; exact G.toSubpath
  | succ m ih =>
    intro A B thr G h
    unfold optWalk at h
    split at h
    swap
    · cases h; exact G.toSubpath
    have h2 := G.two
    obtain ⟨v, hv⟩ : ∃ v, A[A.length - 1]? = some v := ⟨_, List.getElem?_eq_getElem (by omega)⟩
    obtain ⟨u, hu⟩ : ∃ u, A[A.length - 2]? = some u := ⟨_, List.getElem?_eq_getElem (by omega)⟩
    cases hray : optRay W junk (st A.length) A thr with
    | none => rw [hray] at h; cases h
    | some o =>
      rw [hray] at h
      rcases optRay_next h2 hu hv hray with ⟨rfl, -⟩ | ⟨wo, C, rev, next, hdir, hrev, hnext, rfl⟩
      · cases h; exact G.toSubpath
      have S := G.upd (wo := wo) (rev := rev) hu hv
      obtain ⟨hlen, g1, g2⟩ := upd_ends h2 { u with pdfRev := rev } { v with wFwd := wo }
      set A2 := (A.set (A.length - 1) { v with wFwd := wo }).set (A.length - 2) { u with pdfRev := rev } with hA2
      simp only [hlen, g1] at h
      cases hhit : isect v.sp.geom.p wo with
      | none => rw [hhit] at h; simp only [Option.some.injEq] at h; rw [← h]; exact S
      | some hit =>
        rw [hhit] at h
        simp only at h
        cases hcomp : (st A.length).comp hit (-wo) with
        | none => rw [hcomp] at h; cases h
        | some q =>
          obtain ⟨c, wc⟩ := q
          rw [hcomp] at h
          cases hpa : convertToArea next v.sp.geom hit.geom with
          | none => rw [hpa] at h; cases h
          | some p =>
            rw [hpa] at h
            simp only at h
            have vfin := G.last v hv
            have hdirs := hit_dirs (v := v.vert) (h := ⟨hit, c⟩) hi ((hst _).dir _ _ _ wo C hdir) (fun h => by rw [show v.vert.sp = v.sp from rfl, vfin] at h; cases h) hhit
              (fun hh => by rw [show v.vert.sp = v.sp from rfl, vfin] at hh; cases hh.1)
            have S' := S.push (u := { u with pdfRev := rev }) (v := { v with wFwd := wo }) (h := ⟨hit, c, junkW, -wo, p, junk, wc • (thr * C)⟩) (by omega) (by rw [hlen]; exact g2) (by rw [hlen]; exact g1) next hdirs hpa hnext hrev (hi _ _ _ hhit).1
            cases hinf : hit.geom.infinite with
            | true => rw [hinf, if_pos rfl] at h; cases h; exact S'
            | false =>
              rw [hinf] at h
              simp only [Bool.false_eq_true, if_false] at h
              refine ih _ B _ ⟨S', by simp; omega, ?_⟩ h
              intro x hx
              simp at hx
              subst hx; exact hinf

/-- C51. Sampling a subpath fills its cache with the directions and densities the weight computation takes them for, whatever the samplers return and however long the subpath gets. The one exception is
    excluded by `hinf`: a ray from a light at infinity that leaves the scene gives a subpath of two vertices at infinity, for which directions do not exist; the renderer connects it to nothing. -/
theorem C51_cache {W : World} {isect : V3 ℝ → V3 ℝ → Option SI} (hi : HitsOnRay isect) {junk : ℝ} {junkW : V3 ℝ} {maxVerts : ℤ} {k : Kind}
    (st : ℕ → OptStep) (hst : ∀ n, StepOk k (st n)) (m : ℕ) (thr : V3 ℝ) (A : List CV) (h : optWalk W isect junk junkW maxVerts st m [] thr = some A)
    (hinf : ∀ v v', A[0]? = some v → A[1]? = some v' → ¬ (v.sp.geom.infinite = true ∧ v'.sp.geom.infinite = true)) : Subpath W A k := by
  have empty : Subpath W ([] : List CV) k := by
    refine ⟨⟨?_, ?_, ?_, ?_⟩, ?_, ?_⟩ <;> intros <;> simp at *
  cases m with
  | zero => unfold optWalk at h; cases h; exact empty
  | succ m =>
    unfold optWalk at h
    split at h
    swap
    · cases h; exact empty
    cases hray : optRay W junk (st ([] : List CV).length) [] thr with
    | none => rw [hray] at h; cases h
    | some o =>
      rw [hray] at h
      rcases optRay_first hray with ⟨rfl, -⟩ | ⟨sp, wo, C, p0, al, conn, next, hs, hp0, hal, hconn, hnext, rfl⟩
      · cases h; exact empty
      obtain ⟨hk, hu, hwo⟩ := (hst _).start sp wo C hs
      simp only [List.length_singleton, Nat.sub_self, List.getElem?_cons_zero] at h
      cases hhit : isect sp.geom.p wo with
      | none => rw [hhit] at h; cases h; exact start_one hk rfl hp0
      | some hit =>
        rw [hhit] at h
        simp only at h
        cases hcomp : (st ([] : List CV).length).comp hit (-wo) with
        | none => rw [hcomp] at h; cases h
        | some q =>
          obtain ⟨c, wc⟩ := q
          rw [hcomp] at h
          cases hpa : convertToArea next sp.geom hit.geom with
          | none => rw [hpa] at h; cases h
          | some p =>
            rw [hpa] at h
            simp only at h
            have two : ¬ (sp.geom.infinite = true ∧ hit.geom.infinite = true) → Subpath W [⟨sp, 0, wo, 0, p0, junk, V3.all al⟩, ⟨hit, c, junkW, -wo, p, junk, wc • C⟩] k := fun hne =>
              start_two hk rfl hp0 (hit_dirs (v := ⟨sp, 0⟩) (h := ⟨hit, c⟩) hi hu hwo hhit hne) next hpa conn hconn hnext (hi _ _ _ hhit).1
            cases hf : hit.geom.infinite with
            | true =>
              rw [hf, if_pos rfl] at h
              cases h
              exact two (hinf _ _ rfl rfl)
            | false =>
              rw [hf] at h
              simp only [Bool.false_eq_true, if_false] at h
              refine walk_good hi hst m _ A _ ⟨two (by simp [hf]), by simp, ?_⟩ h
              intro x hx
              simp at hx
              subst hx; exact hf

end LM.Path
