import Verif.Model.Flatten
import Verif.Props.C37_Any
import Verif.Props.C46_Path
namespace LM.Accel
open LM LM.Bvh LM.Surface LM.Scene

/-! ### Specification -/

/-- `Placed nodes meshes j M face p1 p2 p3`: descending from the root along some path reaches the primitive j, whose mesh has the given face; M is the product of the transforms of the
    groups on the path, and p1, p2, p3 are the corners of the face in world space. An object that is reachable along several paths (an instance) is placed several times. -/
def Placed (nodes : List (Scene.Node (Aff ℚ))) (meshes : Meshes) (j : Int) (M : Aff ℚ) (face : ℕ) (p1 p2 p3 : V3 ℚ) : Prop :=
  ∃ (path : List ℕ) (ts : List (Aff ℚ)) (p : Prim) (m : ℕ) (q1 q2 q3 : V3 ℚ), Follows nodes 0 path j ts ∧ M = ts.prod ∧ primAt nodes j = some p ∧ p.mesh = some m ∧
    (meshes m)[face]? = some (q1, q2, q3) ∧ p1 = M.app q1 ∧ p2 = M.app q2 ∧ p3 = M.app q3

/-- The ray meets a placed surface of the primitive j at distance t. -/
def Meets (nodes : List (Scene.Node (Aff ℚ))) (meshes : Meshes) (r : Bound.Ray) (j : Int) (t : ℚ) : Prop :=
  ∃ M face p1 p2 p3 u v, Placed nodes meshes j M face p1 p2 p3 ∧ HitAt p1 p2 p3 r t u v

/-- The same, not counting triangles that are tiny or almost parallel to the ray: the determinant of the ray and the two edges is at least 1e-8. -/
def MeetsClearly (nodes : List (Scene.Node (Aff ℚ))) (meshes : Meshes) (r : Bound.Ray) (j : Int) (t : ℚ) : Prop :=
  ∃ M face p1 p2 p3 u v, Placed nodes meshes j M face p1 p2 p3 ∧ HitAt p1 p2 p3 r t u v ∧ 1 / 10 ^ 8 ≤ |det p1 p2 p3 r|

/-- `A` is the accelerator after a completed build: the graph was traversed to its end, there is at least one triangle, and k ≥ 1 builder threads ran in some interleaving until all had
    returned. -/
def Built (nodes : List (Scene.Node (Aff ℚ))) (meshes : Meshes) (A : Acc) : Prop :=
  ∃ fuel out k s, traverse nodes fuel = .done out ∧ A.flat = flatten nodes meshes out ∧ allocNodes A.flat.trs.length ≠ none ∧
    Reach (triAt A.flat) A.flat.trs.length k s ∧ 1 ≤ k ∧ (∀ t ∈ s.ths, t = Stage.exited) ∧ A.nodes = s.nodes ∧ A.idx = s.idx

theorem MeetsClearly.meets {nodes : List (Scene.Node (Aff ℚ))} {meshes : Meshes} {r : Bound.Ray} {j : Int} {t : ℚ} (h : MeetsClearly nodes meshes r j t) : Meets nodes meshes r j t := by
  obtain ⟨M, face, p1, p2, p3, u, v, hp, hh, _⟩ := h
  exact ⟨M, face, p1, p2, p3, u, v, hp, hh⟩

/-- The right answers to a query for the ray r in the range [tmin, tmax]; `env` is the environment light, if any. -/
def Answers (nodes : List (Scene.Node (Aff ℚ))) (meshes : Meshes) (env : Option Int) (r : Bound.Ray) (tmin tmax : ℚ) : SHit → Prop
  | .surface j p => ∃ t, MeetsClearly nodes meshes r j t ∧ p = r.o + t • r.d ∧ tmin ≤ t ∧ t ≤ tmax ∧ ∀ j' t', MeetsClearly nodes meshes r j' t' → tmin ≤ t' → t' ≤ tmax → t ≤ t'
  | .env i wo => (∀ j' t', MeetsClearly nodes meshes r j' t' → tmin ≤ t' → t' ≤ tmax → False) ∧ 10 ^ 10 ≤ tmax ∧ env = some i ∧ wo = -r.d
  | .miss => (∀ j' t', MeetsClearly nodes meshes r j' t' → tmin ≤ t' → t' ≤ tmax → False) ∧ (tmax < 10 ^ 10 ∨ env = none)

/-! ### Flattening -/

def triOf (M : Aff ℚ) (q : V3 ℚ × V3 ℚ × V3 ℚ) : Tri := Tri.mk' (M.app q.1) (M.app q.2.1) (M.app q.2.2)

theorem mem_meshTris {M : Aff ℚ} {fn : ℕ} {faces : List (V3 ℚ × V3 ℚ × V3 ℚ)} {T : Tri} {fn' face : ℕ} :
    (T, fn', face) ∈ meshTris M fn faces ↔ fn' = fn ∧ ∃ q, faces[face]? = some q ∧ T = triOf M q := by
  unfold meshTris
  simp only [List.mem_map, Prod.mk.injEq]
  constructor
  · rintro ⟨⟨q, f⟩, hq, h1, h2, h3⟩
    simp only at h1 h2 h3
    subst h3
    exact ⟨h2.symm, q, List.mem_zipIdx_iff_getElem?.mp hq, h1.symm⟩
  · rintro ⟨rfl, q, hq, rfl⟩
    exact ⟨(q, face), List.mem_zipIdx_iff_getElem?.mpr hq, rfl, rfl, rfl⟩

theorem flatten_spec (nodes : List (Scene.Node (Aff ℚ))) (meshes : Meshes) (out : List (Int × Aff ℚ)) :
    (∀ T fn face, (T, fn, face) ∈ (flatten nodes meshes out).trs → ∃ v ∈ out, ∃ idx p m q, at? nodes v.1 = some (.prim idx p) ∧ p.mesh = some m ∧ (meshes m)[face]? = some q ∧
      T = triOf v.2 q ∧ (flatten nodes meshes out).flat[fn]? = some (v.2, idx)) ∧
    (∀ v ∈ out, ∀ idx p m face q, at? nodes v.1 = some (.prim idx p) → p.mesh = some m → (meshes m)[face]? = some q → ∃ fn, (triOf v.2 q, fn, face) ∈ (flatten nodes meshes out).trs) := by
  induction out using List.reverseRecOn with
  | nil => exact ⟨fun T fn face h => by simp [flatten] at h, fun v h => by simp at h⟩
  | append_singleton out w ih =>
    obtain ⟨ih1, ih2⟩ := ih
    have hf : flatten nodes meshes (out ++ [w]) = flattenStep nodes meshes (flatten nodes meshes out) w := by simp [flatten]
    rw [hf]
    generalize flatten nodes meshes out = F at ih1 ih2
    -- a step that adds nothing
    have skip : flattenStep nodes meshes F w = F → (∀ idx p m, at? nodes w.1 = some (.prim idx p) → p.mesh ≠ some m) →
        (∀ T fn face, (T, fn, face) ∈ F.trs → ∃ v ∈ out ++ [w], ∃ idx p m q, at? nodes v.1 = some (.prim idx p) ∧ p.mesh = some m ∧ (meshes m)[face]? = some q ∧
          T = triOf v.2 q ∧ F.flat[fn]? = some (v.2, idx)) ∧
        (∀ v ∈ out ++ [w], ∀ idx p m face q, at? nodes v.1 = some (.prim idx p) → p.mesh = some m → (meshes m)[face]? = some q → ∃ fn, (triOf v.2 q, fn, face) ∈ F.trs) := by
      intro _ hn
      refine ⟨fun T fn face h => ?_, fun v hv idx p m face q h1 h2 h3 => ?_⟩
      · obtain ⟨v, hv, r⟩ := ih1 T fn face h
        exact ⟨v, List.mem_append_left _ hv, r⟩
      · rcases List.mem_append.mp hv with hv | hv
        · exact ih2 v hv idx p m face q h1 h2 h3
        · simp only [List.mem_singleton] at hv
          subst hv
          exact absurd h2 (hn idx p m h1)
    cases hat : at? nodes w.1 with
    | none =>
      have e : flattenStep nodes meshes F w = F := by simp [flattenStep, hat]
      rw [e]; exact skip e (fun idx p m h => by rw [hat] at h; cases h)
    | some n =>
      cases n with
      | group i ch b tr =>
        have e : flattenStep nodes meshes F w = F := by simp [flattenStep, hat]
        rw [e]; exact skip e (fun idx p m h => by rw [hat] at h; cases h)
      | prim i p =>
        cases hm : p.mesh with
        | none =>
          have e : flattenStep nodes meshes F w = F := by simp [flattenStep, hat, hm]
          rw [e]; exact skip e (fun idx p' m h => by rw [hat] at h; cases h; rw [hm]; simp)
        | some m =>
          have e : flattenStep nodes meshes F w = ⟨F.trs ++ meshTris w.2 F.flat.length (meshes m), F.flat ++ [(w.2, i)]⟩ := by simp [flattenStep, hat, hm]
          rw [e]
          refine ⟨fun T fn face h => ?_, fun v hv idx p' m' face q h1 h2 h3 => ?_⟩
          · rcases List.mem_append.mp h with h | h
            · obtain ⟨v, hv, idx, p', m', q, a1, a2, a3, a4, a5⟩ := ih1 T fn face h
              refine ⟨v, List.mem_append_left _ hv, idx, p', m', q, a1, a2, a3, a4, ?_⟩
              rw [List.getElem?_append_left (List.getElem?_eq_some_iff.mp a5).1]
              exact a5
            · obtain ⟨rfl, q, hq, rfl⟩ := mem_meshTris.mp h
              exact ⟨w, by simp, i, p, m, q, hat, hm, hq, rfl, by simp⟩
          · rcases List.mem_append.mp hv with hv | hv
            · obtain ⟨fn, hfn⟩ := ih2 v hv idx p' m' face q h1 h2 h3
              exact ⟨fn, List.mem_append_left _ hfn⟩
            · simp only [List.mem_singleton] at hv
              subst hv
              rw [hat] at h1
              cases h1
              rw [hm] at h2
              cases h2
              exact ⟨F.flat.length, List.mem_append_right _ (mem_meshTris.mpr ⟨rfl, q, h3, rfl⟩)⟩

theorem made_triAt (nodes : List (Scene.Node (Aff ℚ))) (meshes : Meshes) (out : List (Int × Aff ℚ)) : Made (triAt (flatten nodes meshes out)) := by
  intro k
  unfold triAt
  split
  · rename_i q hq
    obtain ⟨T, fn, face⟩ := q
    obtain ⟨v, _, idx, p, m, q, _, _, _, h, _⟩ := (flatten_spec nodes meshes out).1 T fn face (List.mem_of_getElem? hq)
    exact ⟨_, _, _, h⟩
  · exact ⟨0, 0, 0, rfl⟩

theorem at?_natCast (nodes : List (Scene.Node (Aff ℚ))) (j : ℕ) : at? nodes (j : Int) = nodes[j]? := by simp [at?]

theorem mem_out_iff {nodes : List (Scene.Node (Aff ℚ))} {fuel : ℕ} {out : List (Int × Aff ℚ)} (h : traverse nodes fuel = .done out) (j : Int) (M : Aff ℚ) :
    (j, M) ∈ out ↔ ∃ path ts, Follows nodes 0 path j ts ∧ M = ts.prod := by
  obtain ⟨ps, _, hps, hall⟩ := C40_every_path_once nodes fuel out h
  constructor
  · intro hm
    obtain ⟨i, hi⟩ := List.getElem?_of_mem hm
    obtain ⟨hl, hg⟩ := List.forall₂_iff_get.mp hall
    obtain ⟨hlt, he⟩ := List.getElem?_eq_some_iff.mp hi
    obtain ⟨ts, hf, ht⟩ := hg i (by omega) hlt
    simp only [List.get_eq_getElem, he, one_mul] at hf ht
    exact ⟨_, ts, hf, ht⟩
  · rintro ⟨path, ts, hf, rfl⟩
    have hp : path ∈ ps := (hps path).mpr ⟨j, ts, hf⟩
    obtain ⟨i, hi⟩ := List.getElem?_of_mem hp
    obtain ⟨hl, hg⟩ := List.forall₂_iff_get.mp hall
    obtain ⟨hlt, he⟩ := List.getElem?_eq_some_iff.mp hi
    obtain ⟨ts', hf', ht'⟩ := hg i hlt (by omega)
    simp only [List.get_eq_getElem, he, one_mul] at hf' ht'
    have hu : ∀ {i p j ts j' ts'}, Follows nodes i p j ts → Follows nodes i p j' ts' → j = j' ∧ ts = ts' := by
      intro i p j ts j' ts' h1
      induction h1 generalizing j' ts' with
      | nil i n h => intro h2; cases h2; exact ⟨rfl, rfl⟩
      | cons i idx ch b tr k c p j ts h hk hf ih =>
        intro h2
        cases h2 with
        | cons _ _ _ _ _ _ _ _ _ ts2 h' hk' hf' =>
          rw [h] at h'
          cases h'
          rw [hk] at hk'
          cases hk'
          obtain ⟨rfl, rfl⟩ := ih hf'
          exact ⟨rfl, rfl⟩
    obtain ⟨e1, e2⟩ := hu hf hf'
    have : out[i]'(by omega) = (j, ts.prod) := Prod.ext e1.symm (by rw [ht', e2])
    rw [← this]
    exact List.getElem_mem _

theorem placed_iff {isEnv} {st : Scene.St (Aff ℚ)} (hw : WF isEnv st) {meshes : Meshes} {fuel : ℕ} {out : List (Int × Aff ℚ)} (h : traverse st.nodes fuel = .done out)
    (j : Int) (M : Aff ℚ) (face : ℕ) (p1 p2 p3 : V3 ℚ) :
    Placed st.nodes meshes j M face p1 p2 p3 ↔ ∃ v ∈ out, ∃ p m q, v = (j, M) ∧ at? st.nodes v.1 = some (.prim j p) ∧ p.mesh = some m ∧ (meshes m)[face]? = some q ∧
      p1 = M.app q.1 ∧ p2 = M.app q.2.1 ∧ p3 = M.app q.2.2 := by
  have hidx : ∀ i n, at? st.nodes i = some n → n.index = i := by
    intro i n hn
    unfold at? at hn
    split at hn
    · cases hn
    · rename_i hi
      rw [hw.pos _ _ hn]
      omega
  constructor
  · rintro ⟨path, ts, p, m, q1, q2, q3, hf, rfl, hp, hm, hq, e1, e2, e3⟩
    refine ⟨(j, ts.prod), (mem_out_iff h _ _).mpr ⟨path, ts, hf, rfl⟩, p, m, (q1, q2, q3), rfl, ?_, hm, hq, e1, e2, e3⟩
    unfold primAt at hp
    split at hp
    · rename_i idx p' hn
      have := hidx _ _ hn
      simp only [Scene.Node.index] at this
      subst this
      cases hp
      exact hn
    · cases hp
  · rintro ⟨v, hv, p, m, ⟨q1, q2, q3⟩, rfl, hn, hm, hq, e1, e2, e3⟩
    obtain ⟨path, ts, hf, ht⟩ := (mem_out_iff h _ _).mp hv
    exact ⟨path, ts, p, m, q1, q2, q3, hf, ht, by simp [primAt, hn], hm, hq, e1, e2, e3⟩

theorem app_mix (M : Aff ℚ) (p1 p2 p3 : V3 ℚ) (u v : ℚ) : M.app (MathF.mixBarycentric p1 p2 p3 u v) = MathF.mixBarycentric (M.app p1) (M.app p2) (M.app p3) u v := by
  simp only [MathF.mixBarycentric, Aff.app, Aff.lin]
  ext <;> simp <;> ring

/-- What the accelerator returns, in terms of the placed surfaces. -/
theorem accel_spec {isEnv} {st : Scene.St (Aff ℚ)} (hw : WF isEnv st) {meshes : Meshes} {A : Acc} (hb : Built st.nodes meshes A) (r : Bound.Ray) (tmin tmax : ℚ) (fuel : ℕ)
    (o : Out (Option AHit)) (h : accelIntersect A r tmin tmax fuel = some o) :
    o = .undef ∨ (o = .ret none ∧ ∀ j t, MeetsClearly st.nodes meshes r j t → tmin ≤ t → t ≤ tmax → False) ∨
    (∃ a p1 p2 p3 m p q1 q2 q3, o = .ret (some a) ∧ Placed st.nodes meshes a.primitive a.transform a.face p1 p2 p3 ∧ HitAt p1 p2 p3 r a.t a.u a.v ∧ 1 / 10 ^ 8 ≤ |det p1 p2 p3 r| ∧
      tmin ≤ a.t ∧ a.t ≤ tmax ∧ (∀ j t, MeetsClearly st.nodes meshes r j t → tmin ≤ t → t ≤ tmax → a.t ≤ t) ∧
      primAt st.nodes a.primitive = some p ∧ p.mesh = some m ∧ (meshes m)[a.face]? = some (q1, q2, q3) ∧ p1 = a.transform.app q1 ∧ p2 = a.transform.app q2 ∧ p3 = a.transform.app q3) := by
  obtain ⟨tf, out, k, s, htr, hA, hne, hreach, hk, hex, hn, hi⟩ := hb
  obtain ⟨sp1, sp2⟩ := flatten_spec st.nodes meshes out
  have hlen : 1 ≤ A.flat.trs.length := by
    rcases Nat.eq_zero_or_pos A.flat.trs.length with h0 | h0
    · simp [allocNodes, h0] at hne
    · exact h0
  have hths : s.ths ≠ [] := fun h0 => by
    have := reach_length hlen hreach
    rw [h0] at this
    simp at this
    omega
  have hm : Made (triAt A.flat) := by rw [hA]; exact made_triAt _ _ _
  -- the clear meetings are the hits of the triangle test
  have clear : ∀ j t, MeetsClearly st.nodes meshes r j t → tmin ≤ t → t ≤ tmax → ∃ k ∈ List.range A.flat.trs.length, ∃ h', (triAt A.flat k).intersect r tmin tmax = some h' ∧ h'.t = t := by
    rintro j t ⟨M, face, p1, p2, p3, u, v, hp, hh, hd⟩ h1 h2
    obtain ⟨w, hw', p, m, q, rfl, hat, hpm, hq, rfl, rfl, rfl⟩ := (placed_iff hw htr j M face p1 p2 p3).mp hp
    obtain ⟨fn, hfn⟩ := sp2 _ hw' j p m face q hat hpm hq
    rw [← hA] at hfn
    obtain ⟨kk, hkk⟩ := List.getElem?_of_mem hfn
    refine ⟨kk, List.mem_range.mpr (List.getElem?_eq_some_iff.mp hkk).1, ⟨t, u, v⟩, ?_, rfl⟩
    have : triAt A.flat kk = triOf M q := by simp [triAt, hkk]
    rw [this]
    exact C35_complete_partial _ _ _ r tmin tmax t u v hd hh h1 h2
  unfold accelIntersect at h
  rw [hn, hi] at h
  cases htrun : trun s.nodes (triAt A.flat) s.idx r tmin fuel (TSt.init tmax) with
  | none => rw [htrun] at h; cases h
  | some q0 =>
    rw [htrun] at h
    simp only [Option.map_some, Option.some.injEq] at h
    subst h
    cases q0 with
    | overflow => exact .inl rfl
    | next x => exact .inl rfl
    | finished x =>
      right
      obtain ⟨hc, ht⟩ := C37_build_query (triAt A.flat) hm A.flat.trs.length k hlen s hreach hths hex r tmin tmax fuel x htrun
      cases hbest : x.best with
      | none =>
        left
        rw [hbest] at hc
        refine ⟨by simp [accelResult, hbest], fun j t hj h1 h2 => ?_⟩
        obtain ⟨kk, hkk, h', hh', _⟩ := clear j t hj h1 h2
        have := hc kk hkk
        rw [hh'] at this
        cases this
      | some hi' =>
        right
        obtain ⟨hit, i⟩ := hi'
        rw [hbest] at hc
        obtain ⟨hmem, hint, hmin⟩ := hc
        have hlt := List.mem_range.mp hmem
        have hget : A.flat.trs[s.idx i]? = some A.flat.trs[s.idx i] := List.getElem?_eq_getElem hlt
        generalize A.flat.trs[s.idx i] = e at hget
        obtain ⟨T, fn, face⟩ := e
        have hT : triAt A.flat (s.idx i) = T := by simp [triAt, hget]
        obtain ⟨v, hv, idx, p, m, q, a1, a2, a3, a4, a5⟩ := sp1 T fn face (by rw [← hA]; exact List.mem_of_getElem? hget)
        rw [← hA] at a5
        have hidx : idx = v.1 := by
          unfold at? at a1
          split at a1
          · cases a1
          · have := hw.pos _ _ a1
            simp only [Scene.Node.index] at this
            omega
        subst hidx
        rw [hT, a4] at hint
        have htm := ht hit i hbest
        obtain ⟨s1, s2, s3, s4⟩ := C35_sound _ _ _ r tmin tmax hit hint
        have hdet : 1 / 10 ^ 8 ≤ |det (v.2.app q.1) (v.2.app q.2.1) (v.2.app q.2.2) r| := by
          by_contra hd
          have := C35_negation_threshold (v.2.app q.1) (v.2.app q.2.1) (v.2.app q.2.2) r tmin tmax (not_le.mp hd)
          rw [show triOf v.2 q = Tri.mk' (v.2.app q.1) (v.2.app q.2.1) (v.2.app q.2.2) from rfl] at hint
          rw [this] at hint
          cases hint
        refine ⟨⟨x.tmax, hit.u, hit.v, v.2, v.1, face⟩, v.2.app q.1, v.2.app q.2.1, v.2.app q.2.2, m, p, q.1, q.2.1, q.2.2, ?_, ?_, ?_, hdet, ?_, ?_, ?_, ?_, a2, a3, rfl, rfl, rfl⟩
        · simp [accelResult, hbest, hi, hget, a5]
        · exact (placed_iff hw htr _ _ _ _ _ _).mpr ⟨v, hv, p, m, q, rfl, a1, a2, a3, rfl, rfl, rfl⟩
        · simp only [htm]; exact s1
        · simp only [htm]; exact s2
        · simp only [htm]; exact s3
        · intro j t hj h1 h2
          obtain ⟨kk, hkk, h', hh', rfl⟩ := clear j t hj h1 h2
          simp only [htm]
          exact hmin kk hkk h' hh'
        · simp [primAt, a1]

theorem keeps_primAt {ns ns' : List (Scene.Node (Aff ℚ))} (h : Keeps ns ns') {j : Int} {p : Prim} (hp : primAt ns j = some p) : ∃ idx, at? ns' j = some (.prim idx p) := by
  unfold primAt at hp
  split at hp
  · rename_i idx p' hn
    cases hp
    unfold at? at hn ⊢
    split at hn
    · cases hn
    · obtain ⟨n', h1, h2⟩ := h _ _ hn
      cases n' with
      | prim i q => obtain ⟨_, rfl⟩ := h2; exact ⟨i, by simp_all⟩
      | group i ch b tr => cases h2
  · cases hp

/-- C89 (partial). For every scene made through the API, every completed build by any number of threads in any interleaving, calls that followed the build without resetting the scene, and every
    ray and range: if Scene::intersect returns, then it returns
    - a surface interaction: the point lies on a surface placed in the scene at the time of the build, on the ray and in the range, belongs to the reported primitive, and no surface
      that the ray meets clearly is nearer;
    - or the environment light, only if the range is unbounded (tmax ≥ Inf), in the direction of the ray, and no surface is met clearly in the range;
    - or nothing, and no surface is met clearly in the range.
    It never throws. Missing: surfaces below the threshold 1e-8 of the triangle test (they are ignored, C35_negation_threshold), and queries that do not return because the traversal stack is
    exceeded (C38). -/
theorem C89_closest_partial (isEnv : ℕ → Bool) (ops ops' : List (Op (Aff ℚ))) (hok : ∀ op ∈ ops, OpOk op) (hok' : ∀ op ∈ ops', OpOk op) (hnr : ∀ op ∈ ops', op ≠ .reset)
    (meshes : Meshes) (A : Acc) (hb : Built (run isEnv reset ops).nodes meshes A) (r : Bound.Ray) (tmin tmax : ℚ) (fuel : ℕ) (o : Out SHit)
    (h : sceneIntersect (run isEnv reset (ops ++ ops')) meshes A r tmin tmax fuel = some o) :
    (∃ a, o = .ret a ∧ Answers (run isEnv reset ops).nodes meshes (run isEnv reset (ops ++ ops')).envLight r tmin tmax a) ∨
    (o = .undef ∧ ∃ f, trun A.nodes (triAt A.flat) A.idx r tmin f (TSt.init tmax) = some .overflow) := by
  have hw := C39_wellformed isEnv ops hok
  have hkeep := C39_stable isEnv ops ops' hok hok' hnr
  generalize run isEnv reset (ops ++ ops') = st' at *
  generalize run isEnv reset ops = st at *
  unfold sceneIntersect at h
  cases ha : accelIntersect A r tmin tmax fuel with
  | none => rw [ha] at h; cases h
  | some a =>
    rw [ha] at h
    simp only [Option.map_some, Option.some.injEq] at h
    subst h
    rcases accel_spec hw hb r tmin tmax fuel a ha with rfl | ⟨rfl, hno⟩ | ⟨a, p1, p2, p3, m, p, q1, q2, q3, rfl, hpl, hhit, hd, h1, h2, hmin, hp, hm, hq, e1, e2, e3⟩
    · -- only an overflow is undefined
      refine .inr ⟨rfl, ?_⟩
      unfold accelIntersect at ha
      cases ht : trun A.nodes (triAt A.flat) A.idx r tmin fuel (TSt.init tmax) with
      | none => rw [ht] at ha; cases ha
      | some q0 =>
        rw [ht] at ha
        simp only [Option.map_some, Option.some.injEq] at ha
        cases q0 with
        | overflow => exact ⟨fuel, ht⟩
        | next x =>
          exfalso
          have : ∀ f s, trun A.nodes (triAt A.flat) A.idx r tmin f s ≠ some (.next x) := by
            intro f
            induction f with
            | zero => intro s hs; simp [trun] at hs
            | succ f ih =>
              intro s hs
              simp only [trun] at hs
              split at hs
              · exact ih _ hs
              · rename_i hx
                simp only [Option.some.injEq] at hs
                exact hx _ hs
          exact this _ _ ht
        | finished x =>
          exfalso
          simp only [accelResult] at ha
          split at ha
          · cases ha
          · split at ha
            · cases ha
            · split at ha <;> cases ha
    · left
      have hinf : (Bound.Inf : ℚ) = 10 ^ 10 := rfl
      simp only [sceneResult]
      rw [hinf]
      by_cases hlt : tmax < 10 ^ 10
      · rw [if_pos hlt]
        exact ⟨_, rfl, hno, .inl hlt⟩
      · rw [if_neg hlt]
        cases he : st'.envLight with
        | none => exact ⟨_, rfl, hno, .inr rfl⟩
        | some i => exact ⟨_, rfl, hno, not_lt.mp hlt, rfl, rfl⟩
    · obtain ⟨idx, hat⟩ := keeps_primAt hkeep hp
      simp only [sceneResult, hat, hm, hq]
      refine .inl ⟨_, rfl, a.t, ⟨_, _, _, _, _, _, _, hpl, hhit, hd⟩, ?_, h1, h2, hmin⟩
      rw [app_mix, ← e1, ← e2, ← e3]
      exact hhit.2.2.2.symm

/-! ### Builds and queries that complete -/

theorem exists_complete (trs : ℕ → Tri) (n k : ℕ) (hn : 1 ≤ n) (hlt : n < 10 ^ 10) (s : Bvh.St) (hr : Reach trs n k s) : ∃ s', Reach trs n k s' ∧ ∀ t ∈ s'.ths, t = Stage.exited := by
  generalize hmu : mu s = N
  induction N using Nat.strong_induction_on generalizing s with
  | _ N ih =>
    by_cases hex : ∀ t ∈ s.ths, t = Stage.exited
    · exact ⟨s, hr, hex⟩
    · push Not at hex
      obtain ⟨s', hs'⟩ := C36_no_stuck trs n k hn hlt s hr hex
      exact ih (mu s') (by have := (mu_step trs n s s' (inv_reach hn hr) hs').1; omega) s' (.step s s' hr hs') rfl

/-- C89 (partial). Every scene graph whose traversal ends and that has a triangle (and fewer than 1e10) can be built, with any number k ≥ 1 of threads; with C36_terminates every schedule ends.
    Missing: scenes without triangles (C89_negation_empty), and graphs with cycles, whose traversal does not end. -/
theorem C89_builds_partial (nodes : List (Scene.Node (Aff ℚ))) (meshes : Meshes) (fuel : ℕ) (out : List (Int × Aff ℚ)) (h : traverse nodes fuel = .done out) (k : ℕ) (hk : 1 ≤ k)
    (hne : (flatten nodes meshes out).trs ≠ []) (hlt : (flatten nodes meshes out).trs.length < 10 ^ 10) : ∃ A, Built nodes meshes A ∧ A.flat = flatten nodes meshes out := by
  have hn : 1 ≤ (flatten nodes meshes out).trs.length := List.length_pos_iff.mpr hne
  obtain ⟨s, hr, hex⟩ := exists_complete (triAt (flatten nodes meshes out)) _ k hn hlt _ .init
  refine ⟨⟨s.nodes, s.idx, flatten nodes meshes out⟩, ⟨fuel, out, k, s, h, rfl, ?_, hr, hk, hex, rfl, rfl⟩, rfl⟩
  simp only [allocNodes]
  rw [if_neg (by omega)]
  simp

/-- C89 (partial). With at most 99 triangles every query returns a right answer. Missing: larger scenes, where the traversal stack may be exceeded (C38). -/
theorem C89_total_partial (isEnv : ℕ → Bool) (ops : List (Op (Aff ℚ))) (hok : ∀ op ∈ ops, OpOk op) (meshes : Meshes) (A : Acc) (hb : Built (run isEnv reset ops).nodes meshes A)
    (hsmall : A.flat.trs.length ≤ 99) (r : Bound.Ray) (tmin tmax : ℚ) :
    ∃ fuel a, sceneIntersect (run isEnv reset ops) meshes A r tmin tmax fuel = some (.ret a) ∧
      Answers (run isEnv reset ops).nodes meshes (run isEnv reset ops).envLight r tmin tmax a := by
  obtain ⟨tf, out, k, s, htr, hA, hne, hreach, hk, hex, hn, hi⟩ := id hb
  have hlen : 1 ≤ A.flat.trs.length := by
    rcases Nat.eq_zero_or_pos A.flat.trs.length with h0 | h0
    · simp [allocNodes, h0] at hne
    · exact h0
  have hths : s.ths ≠ [] := fun h0 => by
    have := reach_length hlen hreach
    rw [h0] at this
    simp at this
    omega
  have hm : Made (triAt A.flat) := by rw [hA]; exact made_triAt _ _ _
  obtain ⟨L, hh, hp⟩ := C36_built (triAt A.flat) _ k hlen s hreach hths hex
  have hl : L.length ≤ 99 := by rw [hp.length_eq, List.length_range]; exact hsmall
  obtain ⟨f, x, hx, _⟩ := C37_build_query_partial (triAt A.flat) hm _ k hlen hsmall s hreach hths hex r tmin tmax
  have hq : sceneIntersect (run isEnv reset ops) meshes A r tmin tmax f = some (sceneResult (run isEnv reset ops) meshes r tmax (accelResult A (.finished x))) := by
    simp only [sceneIntersect, accelIntersect]
    rw [hn, hi, hx]
    rfl
  have := C89_closest_partial isEnv ops [] hok (by simp) (by simp) meshes A hb r tmin tmax f _ (by rw [List.append_nil]; exact hq)
  rw [List.append_nil] at this
  rcases this with ⟨a, ha, hans⟩ | ⟨_, f', ho⟩
  · exact ⟨f, a, by rw [hq, ha], hans⟩
  · rw [hn, hi] at ho
    exact absurd ho (C38_small_partial s.nodes s.idx _ hm L hh hl r tmin tmax f')

/-- C89 (negation). A scene without triangles, for instance a camera and an environment light, cannot be built: the size computed for the node array is -1 and the allocation throws. -/
theorem C89_negation_empty : ∃ (isEnv : ℕ → Bool) (ops : List (Op (Aff ℚ))) (out : List (Int × Aff ℚ)), (∀ op ∈ ops, OpOk op) ∧ traverse (run isEnv reset ops).nodes 5 = .done out ∧
    (run isEnv reset ops).camera.isSome ∧ (run isEnv reset ops).envLight.isSome ∧ ∀ meshes, allocNodes (flatten (run isEnv reset ops).nodes meshes out).trs.length = none ∧
      ∀ A, ¬ Built (run isEnv reset ops).nodes meshes A := by
  have ht : traverse (run (fun _ => true) (reset : Scene.St (Aff ℚ)) [.createPrimitive ⟨none, none, none, some 0, none⟩, .createPrimitive ⟨none, none, some 0, none, none⟩, .addChild 0 1, .addChild 0 2]).nodes 5 =
      .done [(0, 1), (1, 1), (2, 1)] := rfl
  refine ⟨fun _ => true, [.createPrimitive ⟨none, none, none, some 0, none⟩, .createPrimitive ⟨none, none, some 0, none, none⟩, .addChild 0 1, .addChild 0 2], _, ?_, ht, rfl, rfl, ?_⟩
  · intro op hop
    simp at hop
    rcases hop with rfl | rfl | rfl | rfl <;> trivial
  · intro meshes
    refine ⟨rfl, ?_⟩
    rintro A ⟨fuel, out, k, s, h1, h2, h3, -⟩
    apply h3
    -- any traversal that ends visits the same nodes, and none of them has a mesh
    rw [h2]
    have : (flatten (run (fun _ => true) (reset : Scene.St (Aff ℚ)) [.createPrimitive ⟨none, none, none, some 0, none⟩, .createPrimitive ⟨none, none, some 0, none, none⟩, .addChild 0 1,
        .addChild 0 2]).nodes meshes out).trs = [] := by
      rw [List.eq_nil_iff_forall_not_mem]
      rintro ⟨T, fn, face⟩ hT
      obtain ⟨v, hv, idx, p, m, q, a1, a2, -⟩ := (flatten_spec _ _ _).1 T fn face hT
      have hv' := (mem_out_iff h1 v.1 v.2).mp hv
      rw [← mem_out_iff ht] at hv'
      simp only [List.mem_cons, List.not_mem_nil, or_false, Prod.mk.injEq] at hv'
      rcases hv' with ⟨e, -⟩ | ⟨e, -⟩ | ⟨e, -⟩ <;> rw [e] at a1 <;> cases a1 <;> cases a2
    rw [this]
    rfl

/-- C89 (negation). Surfaces below the threshold are invisible: there is a scene of one triangle and a ray that meets it at distance 1, and every query with the range [0, 2] on every build of the
    scene finds nothing. -/
theorem C89_negation_thin : ∃ (ops : List (Op (Aff ℚ))) (meshes : Meshes) (r : Bound.Ray), (∀ op ∈ ops, OpOk op) ∧ Meets (run (fun _ => false) reset ops).nodes meshes r 1 1 ∧
    (∃ A, Built (run (fun _ => false) reset ops).nodes meshes A) ∧
    ∀ A, Built (run (fun _ => false) reset ops).nodes meshes A → ∀ fuel o, sceneIntersect (run (fun _ => false) reset ops) meshes A r 0 2 fuel = some o → ∀ j p, o ≠ .ret (.surface j p) := by
  obtain ⟨p1, p2, p3, r, hd0, hh, hno⟩ := C35_negation_small
  have hd : |det p1 p2 p3 r| < 1 / 10 ^ 8 := by
    by_contra hc
    rw [C35_complete_partial p1 p2 p3 r 0 2 1 (1/4) (1/4) (not_lt.mp hc) hh (by norm_num) (by norm_num)] at hno
    cases hno
  have happ : ∀ p : V3 ℚ, (1 : Aff ℚ).app p = p := fun p => by ext <;> simp [Aff.app, Aff.lin, Aff.one_def]
  let ops : List (Op (Aff ℚ)) := [.createPrimitive ⟨some 0, some 0, none, none, none⟩, .addChild 0 1]
  have hok : ∀ op ∈ ops, OpOk op := by
    intro op hop
    simp [ops] at hop
    rcases hop with rfl | rfl <;> trivial
  have ht : traverse (run (fun _ => false) reset ops).nodes 5 = .done [(0, 1), (1, 1)] := rfl
  have hn1 : at? (run (fun _ => false) reset ops).nodes 1 = some (.prim 1 ⟨some 0, some 0, none, none, none⟩) := rfl
  have hw := C39_wellformed (fun _ => false) ops hok
  have only : ∀ j M face a b c, Placed (run (fun _ => false) reset ops).nodes (fun _ => [(p1, p2, p3)]) j M face a b c ↔ j = 1 ∧ M = 1 ∧ face = 0 ∧ a = p1 ∧ b = p2 ∧ c = p3 := by
    intro j M face a b c
    rw [placed_iff hw ht]
    constructor
    · rintro ⟨v, hv, p, m, q, rfl, h1, h2, h3, e1, e2, e3⟩
      simp only [List.mem_cons, List.not_mem_nil, or_false, Prod.mk.injEq] at hv
      rcases hv with ⟨rfl, rfl⟩ | ⟨rfl, rfl⟩
      · cases h1
      · have hf : face = 0 := by
          have := (List.getElem?_eq_some_iff.mp h3).1
          simpa using this
        subst hf
        simp only [List.getElem?_cons_zero, Option.some.injEq] at h3
        subst h3
        rw [happ] at e1 e2 e3
        exact ⟨rfl, rfl, rfl, e1, e2, e3⟩
    · rintro ⟨rfl, rfl, rfl, rfl, rfl, rfl⟩
      exact ⟨(1, 1), by simp, _, 0, (a, b, c), rfl, hn1, rfl, rfl, (happ a).symm, (happ b).symm, (happ c).symm⟩
  refine ⟨ops, fun _ => [(p1, p2, p3)], r, hok, ⟨1, 0, p1, p2, p3, 1/4, 1/4, (only _ _ _ _ _ _).mpr ⟨rfl, rfl, rfl, rfl, rfl, rfl⟩, hh⟩, ?_, ?_⟩
  · obtain ⟨A, hA, _⟩ := C89_builds_partial (run (fun _ => false) reset ops).nodes (fun _ => [(p1, p2, p3)]) 5 _ ht 1 le_rfl (by intro h; cases h) (by show (1 : ℕ) < 10 ^ 10; norm_num)
    exact ⟨A, hA⟩
  · rintro A hA fuel o ho j p rfl
    have := C89_closest_partial (fun _ => false) ops [] hok (by simp) (by simp) _ A hA r 0 2 fuel _ (by rw [List.append_nil]; exact ho)
    rcases this with ⟨a, ha, hans⟩ | ⟨h, _⟩
    · cases ha
      obtain ⟨t, ⟨M, face, a, b, c, u, v, hp, _, hd'⟩, -⟩ := hans
      obtain ⟨-, -, -, rfl, rfl, rfl⟩ := (only _ _ _ _ _ _).mp hp
      exact absurd hd (not_lt.mpr hd')
    · cases h

/-! ### A concrete scene: one triangle, placed twice through two groups -/

def exOps : List (Op (Aff ℚ)) :=
  [.createGroup ⟨⟨1, 0, 0⟩, ⟨0, 1, 0⟩, ⟨0, 0, 1⟩, ⟨0, 0, 5⟩⟩, .createGroup ⟨⟨2, 0, 0⟩, ⟨0, 2, 0⟩, ⟨0, 0, 2⟩, ⟨0, 0, 3⟩⟩,
   .createPrimitive ⟨some 0, some 0, none, none, none⟩, .addChild 1 3, .addChild 2 3, .addChild 0 1, .addChild 0 2]

def exMeshes : Meshes := fun _ => [(⟨0, 0, 0⟩, ⟨1, 0, 0⟩, ⟨0, 1, 0⟩)]

def exRay : Bound.Ray := ⟨⟨1/4, 1/4, 0⟩, ⟨0, 0, 1⟩, (false, false, false)⟩

/-- Both copies are met, at the distances 5 and 3. Every build of the scene, by any number of threads and in any interleaving, answers with the nearer one. -/
example : (∀ op ∈ exOps, OpOk op) ∧ (∃ A, Built (run (fun _ => false) reset exOps).nodes exMeshes A) ∧
    (∀ A, Built (run (fun _ => false) reset exOps).nodes exMeshes A → A.flat.trs.length ≤ 99 →
      ∃ fuel, sceneIntersect (run (fun _ => false) reset exOps) exMeshes A exRay 0 100 fuel = some (.ret (.surface 3 ⟨1/4, 1/4, 3⟩))) := by
  have hok : ∀ op ∈ exOps, OpOk op := by
    intro op hop
    simp [exOps] at hop
    rcases hop with rfl | rfl | rfl | rfl | rfl | rfl | rfl <;> trivial
  let T1 : Aff ℚ := ⟨⟨1, 0, 0⟩, ⟨0, 1, 0⟩, ⟨0, 0, 1⟩, ⟨0, 0, 5⟩⟩
  let T2 : Aff ℚ := ⟨⟨2, 0, 0⟩, ⟨0, 2, 0⟩, ⟨0, 0, 2⟩, ⟨0, 0, 3⟩⟩
  have ht : traverse (run (fun _ => false) reset exOps).nodes 5 = .done [(0, 1), (1, 1), (3, 1 * T1), (2, 1), (3, 1 * T2)] := rfl
  have hn3 : at? (run (fun _ => false) reset exOps).nodes 3 = some (.prim 3 ⟨some 0, some 0, none, none, none⟩) := rfl
  have hw := C39_wellformed (fun _ => false) exOps hok
  refine ⟨hok, ?_, ?_⟩
  · obtain ⟨A, hA, _⟩ := C89_builds_partial (run (fun _ => false) reset exOps).nodes exMeshes 5 _ ht 4 (by norm_num) (by intro h; cases h) (by show (2 : ℕ) < 10 ^ 10; norm_num)
    exact ⟨A, hA⟩
  · intro A hA hs
    obtain ⟨fuel, a, ha, hans⟩ := C89_total_partial (fun _ => false) exOps hok exMeshes A hA hs exRay 0 100
    refine ⟨fuel, ?_⟩
    rw [ha]
    have near : MeetsClearly (run (fun _ => false) reset exOps).nodes exMeshes exRay 3 3 := by
      refine ⟨1 * T2, 0, ⟨0, 0, 3⟩, ⟨2, 0, 3⟩, ⟨0, 2, 3⟩, 1/8, 1/8, (placed_iff hw ht _ _ _ _ _ _).mpr ⟨(3, 1 * T2), by simp, _, 0, (⟨0, 0, 0⟩, ⟨1, 0, 0⟩, ⟨0, 1, 0⟩), rfl, hn3, rfl, rfl, ?_, ?_, ?_⟩, ?_, ?_⟩
      · rw [one_mul]; ext <;> simp [T2, Aff.app, Aff.lin]
      · rw [one_mul]; ext <;> simp [T2, Aff.app, Aff.lin]
      · rw [one_mul]; ext <;> simp [T2, Aff.app, Aff.lin]
      · refine ⟨by norm_num, by norm_num, by norm_num, ?_⟩
        ext <;> simp [exRay] <;> norm_num
      · simp [det, exRay, V3.dot, V3.cross]; norm_num
    cases a with
    | miss => exact absurd (hans.1 3 3 near (by norm_num) (by norm_num)) id
    | env i wo => exact absurd (hans.1 3 3 near (by norm_num) (by norm_num)) id
    | surface j p =>
      obtain ⟨t, ⟨M, face, p1, p2, p3, u, v, hp, hh, -⟩, rfl, h0, h1, hmin⟩ := hans
      have hle := hmin 3 3 near (by norm_num) (by norm_num)
      obtain ⟨w, hw', p, m, q, rfl, a1, a2, a3, e1, e2, e3⟩ := (placed_iff hw ht _ _ _ _ _ _).mp hp
      have hf : face = 0 := by
        have := (List.getElem?_eq_some_iff.mp a3).1
        simpa [exMeshes] using this
      subst hf
      simp only [exMeshes, List.getElem?_cons_zero, Option.some.injEq] at a3
      subst a3
      have hz := congrArg V3.z hh.2.2.2
      simp only [List.mem_cons, List.not_mem_nil, or_false, Prod.mk.injEq] at hw'
      rcases hw' with ⟨rfl, rfl⟩ | ⟨rfl, rfl⟩ | ⟨rfl, rfl⟩ | ⟨rfl, rfl⟩ | ⟨rfl, rfl⟩
      · cases a1
      · cases a1
      · exfalso
        rw [e1, e2, e3, one_mul] at hz
        simp [exRay, T1, Aff.app, Aff.lin] at hz
        linarith
      · cases a1
      · rw [e1, e2, e3, one_mul] at hz
        simp [exRay, T2, Aff.app, Aff.lin] at hz
        have : t = 3 := by linarith
        subst this
        congr 3
        ext <;> simp [exRay]

end LM.Accel
