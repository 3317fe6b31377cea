import Verif.Props.C93_Instances
/-
  C93: the accelerators that use a ray tracing library answer queries with the nearest placed surface, whichever of them is used.

  Assumption on the libraries (they are not part of the code): `Reports`. A library reports nothing only if no triangle handed to it is met in the range by a ray that is not parallel to it; what it reports is such a
  triangle, none of them nearer. (Embree can meet this only for instances with invertible transforms.) Arithmetic is exact.
-/
namespace LM.Accel
open LM LM.Bvh LM.Surface LM.Scene

/-- Triangle number k in the memory handed to a library. -/
def BufTri (b : Buf) (k : ℕ) (p1 p2 p3 : V3 ℚ) : Prop := ∃ i1 i2 i3, b.fs k = some (i1, i2, i3) ∧ b.vs i1 = some p1 ∧ b.vs i2 = some p2 ∧ b.vs i3 = some p3

/-- The triangle a library identifies by (instance, geometry, primitive), in world space. -/
def HasTri (S : List (ℕ × Geom)) (inst : Option ℕ) (geom prim : ℕ) (p1 p2 p3 : V3 ℚ) : Prop :=
  match inst with
  | none => ∃ b, (geom, Geom.mesh b) ∈ S ∧ BufTri b prim p1 p2 p3
  | some i => ∃ M sub b q1 q2 q3, (i, Geom.inst M sub) ∈ S ∧ (geom, Geom.mesh b) ∈ sub ∧ BufTri b prim q1 q2 q3 ∧ p1 = M.app q1 ∧ p2 = M.app q2 ∧ p3 = M.app q3

/-- A triangle handed to the library is met, not in parallel, at distance t. -/
def LibMeets (S : List (ℕ × Geom)) (r : Bound.Ray) (t : ℚ) : Prop :=
  ∃ inst geom prim p1 p2 p3 u v, HasTri S inst geom prim p1 p2 p3 ∧ HitAt p1 p2 p3 r t u v ∧ det p1 p2 p3 r ≠ 0

/-- What is assumed of a library. -/
def Reports (S : List (ℕ × Geom)) (r : Bound.Ray) (tmin tmax : ℚ) : Option LibHit → Prop
  | none => ∀ t, LibMeets S r t → tmin ≤ t → t ≤ tmax → False
  | some h => (∃ p1 p2 p3, HasTri S h.inst h.geom h.prim p1 p2 p3 ∧ HitAt p1 p2 p3 r h.t h.u h.v ∧ det p1 p2 p3 r ≠ 0) ∧ tmin ≤ h.t ∧ h.t ≤ tmax ∧
      ∀ t, LibMeets S r t → tmin ≤ t → t ≤ tmax → h.t ≤ t

/-- The ray meets a placed surface of the primitive j at distance t and is not parallel to it. -/
def MeetsProperly (nodes : List (Scene.Node (Aff ℚ))) (meshes : Meshes) (r : Bound.Ray) (j : Int) (t : ℚ) : Prop :=
  ∃ M face p1 p2 p3 u v, Placed nodes meshes j M face p1 p2 p3 ∧ HitAt p1 p2 p3 r t u v ∧ det p1 p2 p3 r ≠ 0

/-- The right answers to a query, as in C89 but without the tolerance for thin triangles. -/
def AnswersAll (nodes : List (Scene.Node (Aff ℚ))) (meshes : Meshes) (env : Option Int) (r : Bound.Ray) (tmin tmax : ℚ) : SHit → Prop
  | .surface j p => ∃ t, MeetsProperly nodes meshes r j t ∧ p = r.o + t • r.d ∧ tmin ≤ t ∧ t ≤ tmax ∧ ∀ j' t', MeetsProperly nodes meshes r j' t' → tmin ≤ t' → t' ≤ tmax → t ≤ t'
  | .env i wo => (∀ j' t', MeetsProperly nodes meshes r j' t' → tmin ≤ t' → t' ≤ tmax → False) ∧ 10 ^ 10 ≤ tmax ∧ env = some i ∧ wo = -r.d
  | .miss => (∀ j' t', MeetsProperly nodes meshes r j' t' → tmin ≤ t' → t' ≤ tmax → False) ∧ (tmax < 10 ^ 10 ∨ env = none)

/-! ### Buffers -/

theorem fold_writeFace (M : Aff ℚ) (faces : List (V3 ℚ × V3 ℚ × V3 ℚ)) : ∀ (s : ℕ) (b : Buf),
    (∀ k, k < s ∨ s + faces.length ≤ k → ((faces.zipIdx s).foldl (writeFace M) b).fs k = b.fs k) ∧
    (∀ i, i < 3 * s → ((faces.zipIdx s).foldl (writeFace M) b).vs i = b.vs i) ∧
    ∀ k q, faces[k]? = some q → ((faces.zipIdx s).foldl (writeFace M) b).fs (s + k) = some (3 * (s + k), 3 * (s + k) + 1, 3 * (s + k) + 2) ∧
      ((faces.zipIdx s).foldl (writeFace M) b).vs (3 * (s + k)) = some (M.app q.1) ∧ ((faces.zipIdx s).foldl (writeFace M) b).vs (3 * (s + k) + 1) = some (M.app q.2.1) ∧
      ((faces.zipIdx s).foldl (writeFace M) b).vs (3 * (s + k) + 2) = some (M.app q.2.2) := by
  induction faces with
  | nil => intro s b; exact ⟨fun _ _ => rfl, fun _ _ => rfl, fun k q h => by simp at h⟩
  | cons f faces ih =>
    intro s b
    rw [List.zipIdx_cons, List.foldl_cons]
    obtain ⟨h1, h2, h3⟩ := ih (s + 1) (writeFace M b (f, s))
    refine ⟨fun k hk => ?_, fun i hi => ?_, fun k q hq => ?_⟩
    · rw [h1 k (by simp only [List.length_cons] at hk; omega)]
      simp only [List.length_cons] at hk
      simp only [writeFace, upd]
      rw [if_neg (by omega)]
    · rw [h2 i (by omega)]
      simp only [writeFace, upd]
      rw [if_neg (by omega), if_neg (by omega), if_neg (by omega)]
    · cases k with
      | zero =>
        simp only [List.getElem?_cons_zero, Option.some.injEq] at hq
        subst hq
        simp only [Nat.add_zero]
        rw [h1 s (by omega), h2 _ (by omega), h2 _ (by omega), h2 _ (by omega)]
        simp [writeFace, upd]
      | succ k =>
        have := h3 k q (by simpa using hq)
        rw [show s + 1 + k = s + (k + 1) by omega] at this
        exact this

theorem meshBuf_spec (M : Aff ℚ) (faces : List (V3 ℚ × V3 ℚ × V3 ℚ)) (k : ℕ) (p1 p2 p3 : V3 ℚ) :
    BufTri (meshBuf M faces) k p1 p2 p3 ↔ ∃ q, faces[k]? = some q ∧ p1 = M.app q.1 ∧ p2 = M.app q.2.1 ∧ p3 = M.app q.2.2 := by
  obtain ⟨h1, h2, h3⟩ := fold_writeFace M faces 0 ⟨fun _ => none, fun _ => none⟩
  change (∀ k, _ → (meshBuf M faces).fs k = _) at h1
  constructor
  · rintro ⟨i1, i2, i3, e0, e1, e2, e3⟩
    by_cases hk : faces.length ≤ k
    · rw [h1 k (by omega)] at e0
      cases e0
    · have hq : faces[k]? = some faces[k] := List.getElem?_eq_getElem (by omega)
      obtain ⟨a0, a1, a2, a3⟩ := h3 k _ hq
      simp only [Nat.zero_add] at a0 a1 a2 a3
      change (meshBuf M faces).fs _ = _ at a0
      change (meshBuf M faces).vs _ = _ at a1 a2 a3
      rw [a0] at e0
      cases e0
      rw [a1] at e1
      rw [a2] at e2
      rw [a3] at e3
      cases e1; cases e2; cases e3
      exact ⟨_, hq, rfl, rfl, rfl⟩
  · rintro ⟨q, hq, rfl, rfl, rfl⟩
    obtain ⟨a0, a1, a2, a3⟩ := h3 k _ hq
    simp only [Nat.zero_add] at a0 a1 a2 a3
    exact ⟨_, _, _, a0, a1, a2, a3⟩

/-! ### From the triangles handed over to the answer -/

/-- The library is given exactly the placed triangles, and what it reports is decoded to the placed triangle it stands for. -/
structure Faithful (nodes : List (Scene.Node (Aff ℚ))) (meshes : Meshes) (S : List (ℕ × Geom)) (result : Option LibHit → Out (Option AHit)) : Prop where
  nothing : result none = .ret none
  sound : ∀ h p1 p2 p3, HasTri S h.inst h.geom h.prim p1 p2 p3 → ∃ M j face p m q1 q2 q3, result (some h) = .ret (some ⟨h.t, h.u, h.v, M, j, face⟩) ∧ Placed nodes meshes j M face p1 p2 p3 ∧
    primAt nodes j = some p ∧ p.mesh = some m ∧ (meshes m)[face]? = some (q1, q2, q3) ∧ p1 = M.app q1 ∧ p2 = M.app q2 ∧ p3 = M.app q3
  complete : ∀ j M face p1 p2 p3, Placed nodes meshes j M face p1 p2 p3 → ∃ inst geom prim, HasTri S inst geom prim p1 p2 p3

theorem Faithful.meets {nodes : List (Scene.Node (Aff ℚ))} {meshes : Meshes} {S : List (ℕ × Geom)} {result : Option LibHit → Out (Option AHit)} (hf : Faithful nodes meshes S result) {r : Bound.Ray} {j : Int} {t : ℚ}
    (h : MeetsProperly nodes meshes r j t) : LibMeets S r t := by
  obtain ⟨M, face, p1, p2, p3, u, v, hp, hh, hd⟩ := h
  obtain ⟨inst, geom, prim, ht⟩ := hf.complete j M face p1 p2 p3 hp
  exact ⟨inst, geom, prim, p1, p2, p3, u, v, ht, hh, hd⟩

theorem Faithful.answers {isEnv : ℕ → Bool} {ops ops' : List (Op (Aff ℚ))} (hok : ∀ op ∈ ops, OpOk op) (hok' : ∀ op ∈ ops', OpOk op) (hnr : ∀ op ∈ ops', op ≠ .reset)
    {meshes : Meshes} {S : List (ℕ × Geom)} {result : Option LibHit → Out (Option AHit)} (hf : Faithful (run isEnv reset ops).nodes meshes S result) {r : Bound.Ray} {tmin tmax : ℚ} {res : Option LibHit}
    (hres : Reports S r tmin tmax res) :
    ∃ a, sceneResult (run isEnv reset (ops ++ ops')) meshes r tmax (result res) = .ret a ∧ AnswersAll (run isEnv reset ops).nodes meshes (run isEnv reset (ops ++ ops')).envLight r tmin tmax a := by
  have hkeep := C39_stable isEnv ops ops' hok hok' hnr
  generalize run isEnv reset (ops ++ ops') = st' at *
  generalize run isEnv reset ops = st at *
  cases res with
  | none =>
    rw [hf.nothing]
    have hno : ∀ j' t', MeetsProperly st.nodes meshes r j' t' → tmin ≤ t' → t' ≤ tmax → False := fun j t h => hres t (hf.meets h)
    have hinf : (Bound.Inf : ℚ) = 10 ^ 10 := rfl
    simp only [sceneResult]
    rw [hinf]
    by_cases hlt : tmax < 10 ^ 10
    · rw [if_pos hlt]
      exact ⟨_, rfl, hno, .inl hlt⟩
    · rw [if_neg hlt]
      cases he : st'.envLight with
      | none => exact ⟨_, rfl, hno, .inr rfl⟩
      | some i => exact ⟨_, rfl, hno, not_lt.mp hlt, rfl, rfl⟩
  | some h =>
    obtain ⟨⟨p1, p2, p3, ht, hh, hd⟩, h1, h2, hmin⟩ := hres
    obtain ⟨M, j, face, p, m, q1, q2, q3, e, hpl, hp, hm, hq, e1, e2, e3⟩ := hf.sound h p1 p2 p3 ht
    rw [e]
    obtain ⟨idx, hat⟩ := keeps_primAt hkeep hp
    simp only [sceneResult, hat, hm, hq]
    refine ⟨_, rfl, h.t, ⟨M, face, p1, p2, p3, h.u, h.v, hpl, hh, hd⟩, ?_, h1, h2, fun j' t' ht' => hmin t' (hf.meets ht')⟩
    rw [app_mix, ← e1, ← e2, ← e3]
    exact hh.2.2.2.symm

/-- Shared end of the three soundness proofs: a face of the mesh of a visited primitive is placed. -/
theorem placed_of {isEnv} {st : Scene.St (Aff ℚ)} (hw : WF isEnv st) {meshes : Meshes} {fuel : ℕ} {out : List (Int × Aff ℚ)} (h : traverse st.nodes fuel = .done out) {v : Int × Aff ℚ} (hv : v ∈ out) {idx : Int} {p : Prim} {m face : ℕ}
    {q : V3 ℚ × V3 ℚ × V3 ℚ} (hat : at? st.nodes v.1 = some (.prim idx p)) (hm : p.mesh = some m) (hq : (meshes m)[face]? = some q) :
    Placed st.nodes meshes idx v.2 face (v.2.app q.1) (v.2.app q.2.1) (v.2.app q.2.2) ∧ primAt st.nodes idx = some p ∧ idx = v.1 := by
  have hidx : idx = v.1 := by
    have hat' := hat
    unfold at? at hat'
    split at hat'
    · cases hat'
    · have := hw.pos _ _ hat'
      simp only [Scene.Node.index] at this
      omega
  subst hidx
  exact ⟨(placed_iff hw h _ _ _ _ _ _).mpr ⟨v, hv, p, m, q, rfl, hat, hm, hq, rfl, rfl, rfl⟩, by simp [primAt, hat], rfl⟩

/-! ### accel::embree -/

theorem Embree.build_spec (old : Embree) (nodes : List (Scene.Node (Aff ℚ))) (meshes : Meshes) (out : List (Int × Aff ℚ)) :
    (∀ k g, (k, g) ∈ (Embree.build old nodes meshes out).scene → ∃ v ∈ out, ∃ idx p m, at? nodes v.1 = some (.prim idx p) ∧ p.mesh = some m ∧ g = .mesh (meshBuf v.2 (meshes m)) ∧
      (Embree.build old nodes meshes out).flat[k]? = some (v.2, idx)) ∧
    (∀ v ∈ out, ∀ idx p m, at? nodes v.1 = some (.prim idx p) → p.mesh = some m → ∃ k, (k, Geom.mesh (meshBuf v.2 (meshes m))) ∈ (Embree.build old nodes meshes out).scene) := by
  induction out using List.reverseRecOn with
  | nil => exact ⟨fun k g h => by simp [Embree.build, Embree.fresh] at h, fun v h => by simp at h⟩
  | append_singleton out w ih =>
    obtain ⟨ih1, ih2⟩ := ih
    have hf : Embree.build old nodes meshes (out ++ [w]) = Embree.step nodes meshes (Embree.build old nodes meshes out) w := by simp [Embree.build]
    rw [hf]
    generalize Embree.build old nodes meshes out = A at ih1 ih2
    by_cases hadd : ∃ idx p m, at? nodes w.1 = some (.prim idx p) ∧ p.mesh = some m
    · obtain ⟨idx, p, m, hat, hm⟩ := hadd
      have e : Embree.step nodes meshes A w = ⟨A.scene ++ [(A.flat.length, .mesh (meshBuf w.2 (meshes m)))], A.flat ++ [(w.2, idx)]⟩ := by simp [Embree.step, hat, hm]
      rw [e]
      refine ⟨fun k g h => ?_, fun v hv idx' p' m' h1 h2 => ?_⟩
      · rcases List.mem_append.mp h with h | h
        · obtain ⟨v, hv, idx', p', m', a1, a2, a3, a4⟩ := ih1 k g h
          exact ⟨v, List.mem_append_left _ hv, idx', p', m', a1, a2, a3, by dsimp only; rw [List.getElem?_append_left (List.getElem?_eq_some_iff.mp a4).1]; exact a4⟩
        · simp only [List.mem_singleton, Prod.mk.injEq] at h
          obtain ⟨rfl, rfl⟩ := h
          exact ⟨w, by simp, idx, p, m, hat, hm, rfl, by simp⟩
      · rcases List.mem_append.mp hv with hv | hv
        · obtain ⟨k, hk⟩ := ih2 v hv idx' p' m' h1 h2
          exact ⟨k, List.mem_append_left _ hk⟩
        · simp only [List.mem_singleton] at hv
          subst hv
          rw [hat] at h1
          cases h1
          rw [hm] at h2
          cases h2
          exact ⟨A.flat.length, List.mem_append_right _ (by simp)⟩
    · have e : Embree.step nodes meshes A w = A := by
        unfold Embree.step
        split
        · split
          · rfl
          · exact absurd ⟨_, _, _, ‹_›, ‹_›⟩ hadd
        · rfl
      rw [e]
      refine ⟨fun k g h => ?_, fun v hv idx p m h1 h2 => ?_⟩
      · obtain ⟨v, hv, r⟩ := ih1 k g h
        exact ⟨v, List.mem_append_left _ hv, r⟩
      · rcases List.mem_append.mp hv with hv | hv
        · exact ih2 v hv idx p m h1 h2
        · simp only [List.mem_singleton] at hv
          subst hv
          exact absurd ⟨idx, p, m, h1, h2⟩ hadd

theorem Embree.faithful {isEnv} {st : Scene.St (Aff ℚ)} (hw : WF isEnv st) (meshes : Meshes) {fuel : ℕ} {out : List (Int × Aff ℚ)} (h : traverse st.nodes fuel = .done out) (old : Embree) :
    Faithful st.nodes meshes (Embree.build old st.nodes meshes out).scene (Embree.build old st.nodes meshes out).result := by
  obtain ⟨sp1, sp2⟩ := Embree.build_spec old st.nodes meshes out
  refine ⟨rfl, fun hh p1 p2 p3 ht => ?_, fun j M face p1 p2 p3 hp => ?_⟩
  · cases hi : hh.inst with
    | some i =>
      rw [hi] at ht
      obtain ⟨M, sub, b, q1, q2, q3, hmem, -⟩ := ht
      obtain ⟨v, hv, idx, p, m, a1, a2, a3, a4⟩ := sp1 _ _ hmem
      cases a3
    | none =>
      rw [hi] at ht
      obtain ⟨b, hmem, hb⟩ := ht
      obtain ⟨v, hv, idx, p, m, a1, a2, a3, a4⟩ := sp1 _ _ hmem
      cases a3
      obtain ⟨q, hq, rfl, rfl, rfl⟩ := (meshBuf_spec _ _ _ _ _ _).mp hb
      obtain ⟨hpl, hpr, -⟩ := placed_of hw h hv a1 a2 hq
      exact ⟨v.2, idx, hh.prim, p, m, q.1, q.2.1, q.2.2, by simp [Embree.result, a4], hpl, hpr, a2, hq, rfl, rfl, rfl⟩
  · obtain ⟨v, hv, p, m, q, rfl, hat, hm, hq, rfl, rfl, rfl⟩ := (placed_iff hw h _ _ _ _ _ _).mp hp
    obtain ⟨k, hk⟩ := sp2 _ hv j p m hat hm
    exact ⟨none, k, face, _, hk, (meshBuf_spec _ _ _ _ _ _).mpr ⟨q, hq, rfl, rfl, rfl⟩⟩

/-- C93. accel::embree answers every query on every scene built through the API, whatever was built before, with the nearest placed surface. The scene may be edited between the build and the query, except for reset. -/
theorem C93_embree (isEnv : ℕ → Bool) (ops ops' : List (Op (Aff ℚ))) (hok : ∀ op ∈ ops, OpOk op) (hok' : ∀ op ∈ ops', OpOk op) (hnr : ∀ op ∈ ops', op ≠ .reset) (meshes : Meshes)
    (fuel : ℕ) (out : List (Int × Aff ℚ)) (h : traverse (run isEnv reset ops).nodes fuel = .done out) (old A : Embree) (hA : A = Embree.build old (run isEnv reset ops).nodes meshes out)
    (r : Bound.Ray) (tmin tmax : ℚ) (res : Option LibHit) (hres : Reports A.scene r tmin tmax res) :
    ∃ a, sceneResult (run isEnv reset (ops ++ ops')) meshes r tmax (A.result res) = .ret a ∧ AnswersAll (run isEnv reset ops).nodes meshes (run isEnv reset (ops ++ ops')).envLight r tmin tmax a := by
  subst hA
  exact (Embree.faithful (C39_wellformed isEnv ops hok) meshes h old).answers hok hok' hnr hres

/-! ### accel::nanort -/

/-- The triangles recorded so far: (flattened node, face) and corners. -/
structure NanoIs (A : Nano) (T : List ((ℕ × ℕ) × V3 ℚ × V3 ℚ × V3 ℚ)) : Prop where
  faces : A.faces = T.map (·.1)
  vs : A.vs = T.flatMap (fun x => [x.2.1, x.2.2.1, x.2.2.2])
  fs : A.fs = List.range (3 * T.length)

theorem flatMap3_get {α β : Type} (f g h : α → β) (T : List α) (k : ℕ) : (T.flatMap (fun x => [f x, g x, h x]))[3 * k]? = T[k]?.map f ∧ (T.flatMap (fun x => [f x, g x, h x]))[3 * k + 1]? = T[k]?.map g ∧
    (T.flatMap (fun x => [f x, g x, h x]))[3 * k + 2]? = T[k]?.map h := by
  induction T generalizing k with
  | nil => simp
  | cons a T ih =>
    cases k with
    | zero => simp
    | succ k =>
      obtain ⟨i1, i2, i3⟩ := ih k
      rw [List.flatMap_cons]
      refine ⟨?_, ?_, ?_⟩
      · rw [show 3 * (k + 1) = 3 * k + 3 by omega]; simpa using i1
      · rw [show 3 * (k + 1) + 1 = 3 * k + 1 + 3 by omega]; simpa using i2
      · rw [show 3 * (k + 1) + 2 = 3 * k + 2 + 3 by omega]; simpa using i3

theorem NanoIs.tri {A : Nano} {T : List ((ℕ × ℕ) × V3 ℚ × V3 ℚ × V3 ℚ)} (h : NanoIs A T) (k : ℕ) (p1 p2 p3 : V3 ℚ) : BufTri A.buf k p1 p2 p3 ↔ ∃ x, T[k]? = some (x, p1, p2, p3) := by
  obtain ⟨g1, g2, g3⟩ := flatMap3_get (fun x : (ℕ × ℕ) × V3 ℚ × V3 ℚ × V3 ℚ => x.2.1) (fun x => x.2.2.1) (fun x => x.2.2.2) T k
  have hfs : ∀ i, A.fs[i]? = if i < 3 * T.length then some i else none := by
    intro i
    rw [h.fs]
    split
    · rename_i hi; simp [hi]
    · rename_i hi; exact List.getElem?_eq_none (by simpa using hi)
  unfold BufTri Nano.buf
  dsimp only
  by_cases hk : k < T.length
  · have e : T[k]? = some T[k] := List.getElem?_eq_getElem hk
    rw [hfs, hfs, hfs, if_pos (by omega), if_pos (by omega), if_pos (by omega)]
    rw [e] at g1 g2 g3 ⊢
    rw [← h.vs] at g1 g2 g3
    constructor
    · rintro ⟨i1, i2, i3, e0, e1, e2, e3⟩
      cases e0
      rw [g1] at e1
      rw [g2] at e2
      rw [g3] at e3
      simp only [Option.map_some, Option.some.injEq] at e1 e2 e3
      subst e1 e2 e3
      exact ⟨T[k].1, rfl⟩
    · rintro ⟨x, hx⟩
      cases hT : T[k] with
      | mk y z =>
        rw [hT] at hx g1 g2 g3
        cases hx
        exact ⟨_, _, _, rfl, g1, g2, g3⟩
  · rw [hfs, if_neg (by omega), List.getElem?_eq_none (l := T) (by omega)]
    simp

theorem NanoIs.face {A : Nano} {T : List ((ℕ × ℕ) × V3 ℚ × V3 ℚ × V3 ℚ)} (h : NanoIs A T) (M : Aff ℚ) (fn : ℕ) (q : (V3 ℚ × V3 ℚ × V3 ℚ) × ℕ) :
    NanoIs (Nano.face M fn A q) (T ++ [((fn, q.2), M.app q.1.1, M.app q.1.2.1, M.app q.1.2.2)]) := by
  refine ⟨by simp [Nano.face, h.faces], by simp [Nano.face, h.vs], ?_⟩
  simp only [Nano.face, h.fs, List.length_range, List.length_append, List.length_singleton]
  rw [show 3 * (T.length + 1) = 3 * T.length + 1 + 1 + 1 by omega, List.range_succ, List.range_succ, List.range_succ]
  simp

theorem NanoIs.faces_fold (M : Aff ℚ) (fn : ℕ) (l : List ((V3 ℚ × V3 ℚ × V3 ℚ) × ℕ)) : ∀ {A : Nano} {T : List ((ℕ × ℕ) × V3 ℚ × V3 ℚ × V3 ℚ)}, NanoIs A T →
    NanoIs (l.foldl (Nano.face M fn) A) (T ++ l.map (fun q => ((fn, q.2), M.app q.1.1, M.app q.1.2.1, M.app q.1.2.2))) ∧ (l.foldl (Nano.face M fn) A).flat = A.flat := by
  induction l with
  | nil => intro A T h; simpa using h
  | cons q l ih =>
    intro A T h
    obtain ⟨h1, h2⟩ := ih (h.face M fn q)
    refine ⟨?_, h2⟩
    simpa using h1

theorem Nano.build_spec (old : Nano) (nodes : List (Scene.Node (Aff ℚ))) (meshes : Meshes) (out : List (Int × Aff ℚ)) : ∃ T, NanoIs (Nano.build old nodes meshes out) T ∧
    (∀ fn face p1 p2 p3, ((fn, face), p1, p2, p3) ∈ T → ∃ v ∈ out, ∃ idx p m q, at? nodes v.1 = some (.prim idx p) ∧ p.mesh = some m ∧ (meshes m)[face]? = some q ∧
      p1 = v.2.app q.1 ∧ p2 = v.2.app q.2.1 ∧ p3 = v.2.app q.2.2 ∧ (Nano.build old nodes meshes out).flat[fn]? = some (v.2, idx)) ∧
    (∀ v ∈ out, ∀ idx p m face q, at? nodes v.1 = some (.prim idx p) → p.mesh = some m → (meshes m)[face]? = some q → ∃ fn, ((fn, face), v.2.app q.1, v.2.app q.2.1, v.2.app q.2.2) ∈ T) := by
  induction out using List.reverseRecOn with
  | nil => exact ⟨[], ⟨rfl, rfl, rfl⟩, fun _ _ _ _ _ h => by simp at h, fun v h => by simp at h⟩
  | append_singleton out w ih =>
    obtain ⟨T, hT, ih1, ih2⟩ := ih
    have hf : Nano.build old nodes meshes (out ++ [w]) = Nano.step nodes meshes (Nano.build old nodes meshes out) w := by simp [Nano.build]
    rw [hf]
    generalize Nano.build old nodes meshes out = A at hT ih1 ih2
    by_cases hadd : ∃ idx p m, at? nodes w.1 = some (.prim idx p) ∧ p.mesh = some m
    · obtain ⟨idx, p, m, hat, hm⟩ := hadd
      have e : Nano.step nodes meshes A w = (meshes m).zipIdx.foldl (Nano.face w.2 A.flat.length) { A with flat := A.flat ++ [(w.2, idx)] } := by simp [Nano.step, hat, hm]
      rw [e]
      obtain ⟨h1, h2⟩ := NanoIs.faces_fold w.2 A.flat.length (meshes m).zipIdx (A := { A with flat := A.flat ++ [(w.2, idx)] }) (T := T) ⟨hT.faces, hT.vs, hT.fs⟩
      refine ⟨_, h1, fun fn face p1 p2 p3 h => ?_, fun v hv idx' p' m' face q a1 a2 a3 => ?_⟩
      · rw [h2]
        rcases List.mem_append.mp h with h | h
        · obtain ⟨v, hv, idx', p', m', q, a1, a2, a3, a4, a5, a6, a7⟩ := ih1 _ _ _ _ _ h
          exact ⟨v, List.mem_append_left _ hv, idx', p', m', q, a1, a2, a3, a4, a5, a6, by dsimp only; rw [List.getElem?_append_left (List.getElem?_eq_some_iff.mp a7).1]; exact a7⟩
        · obtain ⟨⟨q, f⟩, hq, he⟩ := List.mem_map.mp h
          simp only [Prod.mk.injEq] at he
          obtain ⟨⟨rfl, rfl⟩, rfl, rfl, rfl⟩ := he
          exact ⟨w, by simp, idx, p, m, q, hat, hm, List.mem_zipIdx_iff_getElem?.mp hq, rfl, rfl, rfl, by simp⟩
      · rcases List.mem_append.mp hv with hv | hv
        · obtain ⟨fn, hfn⟩ := ih2 v hv idx' p' m' face q a1 a2 a3
          exact ⟨fn, List.mem_append_left _ hfn⟩
        · simp only [List.mem_singleton] at hv
          subst hv
          rw [hat] at a1
          cases a1
          rw [hm] at a2
          cases a2
          exact ⟨A.flat.length, List.mem_append_right _ (List.mem_map.mpr ⟨(q, face), List.mem_zipIdx_iff_getElem?.mpr a3, rfl⟩)⟩
    · have e : Nano.step nodes meshes A w = A := by
        unfold Nano.step
        split
        · split
          · rfl
          · exact absurd ⟨_, _, _, ‹_›, ‹_›⟩ hadd
        · rfl
      rw [e]
      refine ⟨T, hT, fun fn face p1 p2 p3 h => ?_, fun v hv idx p m face q h1 h2 h3 => ?_⟩
      · obtain ⟨v, hv, r⟩ := ih1 _ _ _ _ _ h
        exact ⟨v, List.mem_append_left _ hv, r⟩
      · rcases List.mem_append.mp hv with hv | hv
        · exact ih2 v hv idx p m face q h1 h2 h3
        · simp only [List.mem_singleton] at hv
          subst hv
          exact absurd ⟨idx, p, m, h1, h2⟩ hadd

theorem Nano.faithful {isEnv} {st : Scene.St (Aff ℚ)} (hw : WF isEnv st) (meshes : Meshes) {fuel : ℕ} {out : List (Int × Aff ℚ)} (h : traverse st.nodes fuel = .done out) (old : Nano) :
    Faithful st.nodes meshes [(0, .mesh (Nano.build old st.nodes meshes out).buf)] (Nano.build old st.nodes meshes out).result := by
  obtain ⟨T, hT, sp1, sp2⟩ := Nano.build_spec old st.nodes meshes out
  refine ⟨rfl, fun hh p1 p2 p3 ht => ?_, fun j M face p1 p2 p3 hp => ?_⟩
  · cases hi : hh.inst with
    | some i =>
      rw [hi] at ht
      obtain ⟨M, sub, b, q1, q2, q3, hmem, -⟩ := ht
      simp at hmem
    | none =>
      rw [hi] at ht
      obtain ⟨b, hmem, hb⟩ := ht
      simp only [List.mem_singleton, Prod.mk.injEq, Geom.mesh.injEq] at hmem
      obtain ⟨-, rfl⟩ := hmem
      obtain ⟨⟨fn, face⟩, hk⟩ := (hT.tri _ _ _ _).mp hb
      obtain ⟨v, hv, idx, p, m, q, a1, a2, a3, rfl, rfl, rfl, a7⟩ := sp1 _ _ _ _ _ (List.mem_of_getElem? hk)
      obtain ⟨hpl, hpr, -⟩ := placed_of hw h hv a1 a2 a3
      have hface : (Nano.build old st.nodes meshes out).faces[hh.prim]? = some (fn, face) := by rw [hT.faces, List.getElem?_map, hk]; rfl
      exact ⟨v.2, idx, face, p, m, q.1, q.2.1, q.2.2, by simp [Nano.result, hface, a7], hpl, hpr, a2, a3, rfl, rfl, rfl⟩
  · obtain ⟨v, hv, p, m, q, rfl, hat, hm, hq, rfl, rfl, rfl⟩ := (placed_iff hw h _ _ _ _ _ _).mp hp
    obtain ⟨fn, hfn⟩ := sp2 _ hv j p m face q hat hm hq
    obtain ⟨k, hk⟩ := List.getElem?_of_mem hfn
    exact ⟨none, 0, k, _, List.mem_singleton.mpr rfl, (hT.tri _ _ _ _).mpr ⟨_, hk⟩⟩

/-- C93. accel::nanort answers every query on every scene built through the API, whatever was built before, with the nearest placed surface. -/
theorem C93_nanort (isEnv : ℕ → Bool) (ops ops' : List (Op (Aff ℚ))) (hok : ∀ op ∈ ops, OpOk op) (hok' : ∀ op ∈ ops', OpOk op) (hnr : ∀ op ∈ ops', op ≠ .reset) (meshes : Meshes)
    (fuel : ℕ) (out : List (Int × Aff ℚ)) (h : traverse (run isEnv reset ops).nodes fuel = .done out) (old A : Nano) (hA : A = Nano.build old (run isEnv reset ops).nodes meshes out)
    (r : Bound.Ray) (tmin tmax : ℚ) (res : Option LibHit) (hres : Reports [(0, .mesh A.buf)] r tmin tmax res) :
    ∃ a, sceneResult (run isEnv reset (ops ++ ops')) meshes r tmax (A.result res) = .ret a ∧ AnswersAll (run isEnv reset ops).nodes meshes (run isEnv reset (ops ++ ops')).envLight r tmin tmax a := by
  subst hA
  exact (Nano.faithful (C39_wellformed isEnv ops hok) meshes h old).answers hok hok' hnr hres

/-! ### accel::embreeinstanced -/

theorem mapM_some_of {α β : Type} {f : α → Option β} : ∀ {l : List α} (g : α → β), (∀ a ∈ l, f a = some (g a)) → l.mapM f = some (l.map g) := by
  intro l
  induction l with
  | nil => intro g _; rfl
  | cons a l ih =>
    intro g h
    rw [List.mapM_cons, h a (by simp), ih g (fun b hb => h b (by simp [hb]))]
    rfl

/-- What is attached for a primitive. -/
def primGeom (nodes : List (Scene.Node (Aff ℚ))) (meshes : Meshes) (k : ℕ) (M : Aff ℚ) (j : Int) : List (ℕ × Geom) :=
  match at? nodes j with
  | some (.prim _ p) => match p.mesh with
    | none => []
    | some m => [(k, .mesh (meshBuf M (meshes m)))]
  | _ => []

/-- What is attached for any flattened node. -/
def nodeGeom (nodes : List (Scene.Node (Aff ℚ))) (meshes : Meshes) (built : ℕ → Option (List (ℕ × Geom))) : FNode (Aff ℚ) → List (ℕ × Geom)
  | .prim k M j => primGeom nodes meshes k M j
  | .inst k M _ c => match built c with
    | none => []
    | some s => [(k, .inst M s)]

/-- The library scene made from a flattened scene of primitives. -/
def subScene (nodes : List (Scene.Node (Aff ℚ))) (meshes : Meshes) (ps : List (Aff ℚ × Int)) : List (ℕ × Geom) := ((mkPrims 0 ps).map (nodeGeom nodes meshes (fun _ => none))).flatten

/-- All primitives the flattening recorded are primitives of the scene. -/
def AllPrims (nodes : List (Scene.Node (Aff ℚ))) (ps : List (Aff ℚ × Int)) : Prop := ∀ q ∈ ps, ∃ i p, at? nodes q.2 = some (.prim i p)

theorem attach_prim {nodes : List (Scene.Node (Aff ℚ))} {meshes : Meshes} {built : ℕ → Option (List (ℕ × Geom))} {i k : ℕ} {M : Aff ℚ} {j : Int} (h : ∃ i p, at? nodes j = some (.prim i p)) :
    attach nodes meshes built i (.prim k M j) = some (primGeom nodes meshes k M j) := by
  obtain ⟨i', p, hp⟩ := h
  simp only [attach, primGeom, hp]
  cases p.mesh <;> rfl

theorem buildScene_prims {nodes : List (Scene.Node (Aff ℚ))} {meshes : Meshes} {built : ℕ → Option (List (ℕ × Geom))} {i : ℕ} {ps : List (Aff ℚ × Int)} (h : AllPrims nodes ps) :
    buildScene nodes meshes built i (mkPrims 0 ps) = some (subScene nodes meshes ps) := by
  unfold buildScene subScene
  rw [mapM_some_of (nodeGeom nodes meshes (fun _ => none))]
  · rfl
  · intro f hf
    obtain ⟨⟨q, k⟩, hq, rfl⟩ := List.mem_map.mp hf
    exact attach_prim (h q (List.mem_of_getElem? (List.mem_zipIdx_iff_getElem?.mp hq)))

/-- The loop builds every scene but the root. -/
theorem buildFrom_spec {nodes : List (Scene.Node (Aff ℚ))} {meshes : Meshes} {scenes : List (List (FNode (Aff ℚ)))}
    (hs : ∀ c, 1 ≤ c → ∀ l, scenes[c]? = some l → ∃ ps, l = mkPrims 0 ps ∧ AllPrims nodes ps) : ∀ n, n < scenes.length → ∃ built, buildFrom nodes meshes scenes n = some built ∧
      ∀ c, scenes.length - n ≤ c → ∀ ps, scenes[c]? = some (mkPrims 0 ps) → built c = some (subScene nodes meshes ps) := by
  intro n
  induction n with
  | zero =>
    intro hn
    refine ⟨_, rfl, fun c hc ps h => ?_⟩
    rw [List.getElem?_eq_none (by omega)] at h
    cases h
  | succ n ih =>
    intro hn
    obtain ⟨built, hb, hspec⟩ := ih (by omega)
    have hlt : scenes.length - (n + 1) < scenes.length := by omega
    obtain ⟨l, hl⟩ : ∃ l, scenes[scenes.length - (n + 1)]? = some l := ⟨_, List.getElem?_eq_getElem hlt⟩
    obtain ⟨ps, rfl, hps⟩ := hs _ (by omega) l hl
    have hbs := buildScene_prims (meshes := meshes) (built := built) (i := scenes.length - (n + 1)) hps
    refine ⟨upd built (scenes.length - (n + 1)) (subScene nodes meshes ps), ?_, fun c hc ps' hc' => ?_⟩
    · simp only [buildFrom, hb, hl, hbs, Option.bind_some, Option.map_some]
    · unfold upd
      split
      · rename_i hcc
        subst hcc
        rw [hl] at hc'
        simp only [Option.some.injEq] at hc'
        have : ps = ps' := by
          apply List.ext_getElem?
          intro k
          have := congrArg (fun l => l[k]?) hc'
          simp only [mkPrims_get] at this
          cases h1 : ps[k]? with
          | none => rw [h1] at this; cases h2 : ps'[k]? with
            | none => rfl
            | some b => rw [h2] at this; cases this
          | some a => rw [h1] at this; cases h2 : ps'[k]? with
            | none => rw [h2] at this; cases this
            | some b =>
              rw [h2] at this
              simp only [Option.map_some, Option.some.injEq, FNode.prim.injEq] at this
              rw [Prod.ext this.2.1 this.2.2]
        rw [this]
      · exact hspec c (by omega) ps' hc'

theorem mem_subScene {nodes : List (Scene.Node (Aff ℚ))} {meshes : Meshes} {ps : List (Aff ℚ × Int)} {k : ℕ} {g : Geom} : (k, g) ∈ subScene nodes meshes ps ↔
    ∃ M j i p m, ps[k]? = some (M, j) ∧ at? nodes j = some (.prim i p) ∧ p.mesh = some m ∧ g = .mesh (meshBuf M (meshes m)) := by
  unfold subScene
  simp only [List.mem_flatten, List.mem_map]
  constructor
  · rintro ⟨_, ⟨f, hf, rfl⟩, hm⟩
    obtain ⟨n, hn⟩ := List.getElem?_of_mem hf
    rw [mkPrims_get] at hn
    obtain ⟨⟨M, j⟩, hq, rfl⟩ := Option.map_eq_some_iff.mp hn
    simp only [nodeGeom, primGeom, Nat.zero_add] at hm
    split at hm
    · rename_i i p hat
      split at hm
      · simp at hm
      · rename_i m hm'
        simp only [List.mem_singleton, Prod.mk.injEq] at hm
        obtain ⟨rfl, rfl⟩ := hm
        exact ⟨M, j, i, p, m, hq, hat, hm', rfl⟩
    · simp at hm
  · rintro ⟨M, j, i, p, m, hq, hat, hm, rfl⟩
    refine ⟨_, ⟨.prim k M j, List.mem_of_getElem? (i := k) (by rw [mkPrims_get, hq]; simp), rfl⟩, ?_⟩
    simp [nodeGeom, primGeom, hat, hm]

end LM.Accel
