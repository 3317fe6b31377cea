import Verif.Props.C93_Accels
/-
  C93, second part: accel::embreeinstanced, and the comparison of all the accelerators.
-/
namespace LM.Accel
open LM LM.Bvh LM.Surface LM.Scene

theorem app_mul (A B : Aff ℚ) (x : V3 ℚ) : (A * B).app x = A.app (B.app x) := by
  rw [Aff.mul_def]
  simp only [Aff.lin, Aff.app]
  ext <;> simp only [V3.add_x, V3.add_y, V3.add_z, V3.smul_x, V3.smul_y, V3.smul_z] <;> ring

theorem Expands.mem {scenes : List (List (FNode (Aff ℚ)))} {ns : List (FNode (Aff ℚ))} {ps : List (Aff ℚ × Int)} (h : Expands scenes ns ps) : ∀ f ∈ ns,
    (∀ k M j, f = .prim k M j → (M, j) ∈ ps) ∧
    ∀ k M j c, f = .inst k M j c → 1 ≤ c ∧ ∃ qs, scenes[c]? = some (mkPrims 0 qs) ∧ ∀ q ∈ qs, (M * q.1, q.2) ∈ ps := by
  induction h with
  | nil => intro f hf; simp at hf
  | prim k M j ns ps _ ih =>
    intro f hf
    rcases List.mem_cons.mp hf with rfl | hf
    · exact ⟨fun k' M' j' e => (by cases e; simp), fun _ _ _ _ e => (by cases e)⟩
    · obtain ⟨i1, i2⟩ := ih f hf
      refine ⟨fun k' M' j' e => List.mem_cons_of_mem _ (i1 k' M' j' e), fun k' M' j' c e => ?_⟩
      obtain ⟨hc, qs, h1, h2⟩ := i2 k' M' j' c e
      exact ⟨hc, qs, h1, fun q hq => List.mem_cons_of_mem _ (h2 q hq)⟩
  | inst k M j c qs ns ps h1 h2 _ ih =>
    intro f hf
    rcases List.mem_cons.mp hf with rfl | hf
    · refine ⟨fun _ _ _ e => (by cases e), fun k' M' j' c' e => ?_⟩
      cases e
      exact ⟨h1, qs, h2, fun q hq => List.mem_append_left _ (List.mem_map.mpr ⟨q, hq, rfl⟩)⟩
    · obtain ⟨i1, i2⟩ := ih f hf
      refine ⟨fun k' M' j' e => List.mem_append_right _ (i1 k' M' j' e), fun k' M' j' c' e => ?_⟩
      obtain ⟨hc, qs', e1, e2⟩ := i2 k' M' j' c' e
      exact ⟨hc, qs', e1, fun q hq => List.mem_append_right _ (e2 q hq)⟩

theorem Expands.cover {scenes : List (List (FNode (Aff ℚ)))} {ns : List (FNode (Aff ℚ))} {ps : List (Aff ℚ × Int)} (h : Expands scenes ns ps) : ∀ M j, (M, j) ∈ ps →
    (∃ k, FNode.prim k M j ∈ ns) ∨ ∃ k M0 j0 c qs N, FNode.inst k M0 j0 c ∈ ns ∧ scenes[c]? = some (mkPrims 0 qs) ∧ (N, j) ∈ qs ∧ M = M0 * N := by
  induction h with
  | nil => intro M j hm; simp at hm
  | prim k M0 j0 ns ps _ ih =>
    intro M j hm
    rcases List.mem_cons.mp hm with e | hm
    · cases e
      exact .inl ⟨k, by simp⟩
    · rcases ih M j hm with ⟨k', hk⟩ | ⟨k', M', j', c, qs, N, a1, a2⟩
      · exact .inl ⟨k', List.mem_cons_of_mem _ hk⟩
      · exact .inr ⟨k', M', j', c, qs, N, List.mem_cons_of_mem _ a1, a2⟩
  | inst k M0 j0 c qs ns ps h1 h2 _ ih =>
    intro M j hm
    rcases List.mem_append.mp hm with hm | hm
    · obtain ⟨⟨N, j'⟩, hq, e⟩ := List.mem_map.mp hm
      cases e
      exact .inr ⟨k, M0, j0, c, qs, N, by simp, h2, hq, rfl⟩
    · rcases ih M j hm with ⟨k', hk⟩ | ⟨k', M', j', c, qs, N, a1, a2⟩
      · exact .inl ⟨k', List.mem_cons_of_mem _ hk⟩
      · exact .inr ⟨k', M', j', c, qs, N, List.mem_cons_of_mem _ a1, a2⟩

theorem mem_primsOf {nodes : List (Scene.Node (Aff ℚ))} (hpos : ∀ i n, at? nodes i = some n → n.index = i) {out : List (Int × Aff ℚ)} {M : Aff ℚ} {j : Int} :
    (M, j) ∈ primsOf nodes out ↔ (j, M) ∈ out ∧ ∃ p, at? nodes j = some (.prim j p) := by
  unfold primsOf
  rw [List.mem_filterMap]
  constructor
  · rintro ⟨v, hv, e⟩
    split at e
    · rename_i idx p hat
      cases e
      obtain rfl : j = v.1 := hpos _ _ hat
      exact ⟨hv, _, hat⟩
    · cases e
  · rintro ⟨hv, p, hat⟩
    exact ⟨_, hv, by simp [hat]⟩

theorem allPrims {nodes : List (Scene.Node (Aff ℚ))} (hpos : ∀ i n, at? nodes i = some n → n.index = i) (out : List (Int × Aff ℚ)) : AllPrims nodes (primsOf nodes out) := by
  rintro ⟨M, j⟩ hq
  obtain ⟨-, p, hp⟩ := (mem_primsOf hpos).mp hq
  exact ⟨j, p, hp⟩

/-- The library scene of the root. -/
theorem Inst.build_spec {nodes : List (Scene.Node (Aff ℚ))} (hpos : ∀ i n, at? nodes i = some n → n.index = i) (meshes : Meshes) {scenes : List (List (FNode (Aff ℚ)))} {root : List (FNode (Aff ℚ))}
    {out : List (Int × Aff ℚ)} (h0 : scenes[0]? = some root) (hex : Expands scenes root (primsOf nodes out))
    (hs : ∀ c, 1 ≤ c → ∀ l, scenes[c]? = some l → ∃ out', l = mkPrims 0 (primsOf nodes out')) (old : Inst) :
    ∃ S built, Inst.build old nodes meshes scenes = some ⟨S, scenes⟩ ∧ S = (root.map (nodeGeom nodes meshes built)).flatten ∧
      ∀ c, 1 ≤ c → ∀ ps, scenes[c]? = some (mkPrims 0 ps) → built c = some (subScene nodes meshes ps) := by
  have hlen := (List.getElem?_eq_some_iff.mp h0).1
  obtain ⟨built, hb, hspec⟩ := buildFrom_spec (meshes := meshes) (scenes := scenes) (nodes := nodes) (fun c hc l hl => by
    obtain ⟨o, rfl⟩ := hs c hc l hl
    exact ⟨_, rfl, allPrims hpos o⟩) (scenes.length - 1) (by omega)
  have hspec' : ∀ c, 1 ≤ c → ∀ ps, scenes[c]? = some (mkPrims 0 ps) → built c = some (subScene nodes meshes ps) := fun c hc ps h => hspec c (by omega) ps h
  have hroot : buildScene nodes meshes built 0 root = some ((root.map (nodeGeom nodes meshes built)).flatten) := by
    unfold buildScene
    rw [mapM_some_of (nodeGeom nodes meshes built)]
    · rfl
    · intro f hf
      obtain ⟨i1, i2⟩ := hex.mem f hf
      cases f with
      | prim k M j => exact attach_prim (allPrims hpos out _ (i1 k M j rfl))
      | inst k M j c =>
        obtain ⟨hc, qs, e1, -⟩ := i2 k M j c rfl
        simp [attach, nodeGeom, hspec' c hc qs e1]
  refine ⟨_, built, ?_, rfl, hspec'⟩
  obtain ⟨n, hn⟩ : ∃ n, scenes.length = n + 1 := ⟨scenes.length - 1, by omega⟩
  have hz : scenes.length - (n + 1) = 0 := by omega
  rw [show scenes.length - 1 = n by omega] at hb
  unfold Inst.build
  rw [show buildFrom nodes meshes scenes scenes.length = buildFrom nodes meshes scenes (n + 1) by rw [hn]]
  simp only [buildFrom, hb, hz, h0, hroot, Option.bind_some, Option.map_some]
  simp [upd]

theorem Inst.faithful {isEnv} {st : Scene.St (Aff ℚ)} (hw : WF isEnv st) (meshes : Meshes) {fuel : ℕ} {out : List (Int × Aff ℚ)} (h : traverse st.nodes fuel = .done out) (old : Inst)
    {fuel' : ℕ} {fst : FSt (Aff ℚ)} (hfl : iflatten st.nodes fuel' = .done fst) :
    ∃ A, Inst.build old st.nodes meshes fst.scenes = some A ∧ Faithful st.nodes meshes A.scene A.result := by
  have hpos : ∀ i n, at? st.nodes i = some n → n.index = i := by
    intro i n hn
    unfold at? at hn
    split at hn
    · cases hn
    · rw [hw.pos _ _ hn]; omega
  obtain ⟨fst', -, huniq, root, h0, hix, hex, hs⟩ := C93_flatten_instances st.nodes hpos fuel out h
  obtain rfl := huniq _ _ hfl
  obtain ⟨S, built, hb, hS, hsub⟩ := Inst.build_spec hpos meshes h0 hex hs old
  refine ⟨_, hb, rfl, ?_, ?_⟩
  · intro hh p1 p2 p3 ht
    dsimp only at ht
    have look : ∀ k g, (k, g) ∈ S → ∃ f ∈ root, (k, g) ∈ nodeGeom st.nodes meshes built f := by
      intro k g hk
      rw [hS] at hk
      simp only [List.mem_flatten, List.mem_map] at hk
      obtain ⟨_, ⟨f, hf, rfl⟩, hk⟩ := hk
      exact ⟨f, hf, hk⟩
    have pos : ∀ f ∈ root, root[f.index]? = some f := by
      intro f hf
      obtain ⟨n, hn⟩ := List.getElem?_of_mem hf
      rw [hix n f hn]
      exact hn
    cases hi : hh.inst with
    | none =>
      rw [hi] at ht
      obtain ⟨b, hmem, hbt⟩ := ht
      obtain ⟨f, hf, hg⟩ := look _ _ hmem
      cases f with
      | inst k M j c =>
        simp only [nodeGeom] at hg
        split at hg
        · simp at hg
        · simp at hg
      | prim k M j =>
        simp only [nodeGeom, primGeom] at hg
        split at hg
        · rename_i i p hat
          split at hg
          · simp at hg
          · rename_i m hm
            simp only [List.mem_singleton, Prod.mk.injEq, Geom.mesh.injEq] at hg
            obtain ⟨rfl, rfl⟩ := hg
            obtain ⟨q, hq, rfl, rfl, rfl⟩ := (meshBuf_spec _ _ _ _ _ _).mp hbt
            obtain ⟨hv, p', hat'⟩ := (mem_primsOf hpos).mp ((hex.mem _ hf).1 _ _ _ rfl)
            rw [hat] at hat'
            cases hat'
            obtain ⟨hpl, hpr, -⟩ := placed_of hw h hv hat hm hq
            have hp := pos _ hf
            simp only [FNode.index] at hp
            exact ⟨M, j, hh.prim, p, m, q.1, q.2.1, q.2.2, by simp [Inst.result, hi, h0, hp, FNode.M, FNode.node], hpl, hpr, hm, hq, rfl, rfl, rfl⟩
        · simp at hg
    | some i =>
      rw [hi] at ht
      obtain ⟨M0, sub, b, r1, r2, r3, hmem, hmem2, hbt, rfl, rfl, rfl⟩ := ht
      obtain ⟨f, hf, hg⟩ := look _ _ hmem
      cases f with
      | prim k M j =>
        simp only [nodeGeom, primGeom] at hg
        split at hg
        · split at hg
          · simp at hg
          · simp at hg
        · simp at hg
      | inst k M j c =>
        simp only [nodeGeom] at hg
        split at hg
        · simp at hg
        · rename_i s hs'
          simp only [List.mem_singleton, Prod.mk.injEq, Geom.inst.injEq] at hg
          obtain ⟨rfl, rfl, rfl⟩ := hg
          obtain ⟨hc, qs, e1, e2⟩ := (hex.mem _ hf).2 _ _ _ _ rfl
          rw [hsub c hc qs e1] at hs'
          cases hs'
          obtain ⟨N, j', i', p, m, hq0, hat, hm, hb'⟩ := mem_subScene.mp hmem2
          cases hb'
          obtain ⟨q, hq, rfl, rfl, rfl⟩ := (meshBuf_spec _ _ _ _ _ _).mp hbt
          obtain ⟨hv, p', hat'⟩ := (mem_primsOf hpos).mp (e2 _ (List.mem_of_getElem? hq0))
          dsimp only at hv hat'
          rw [hat] at hat'
          cases hat'
          obtain ⟨hpl, hpr, -⟩ := placed_of hw h hv hat hm hq
          simp only [app_mul] at hpl
          have hp := pos _ hf
          simp only [FNode.index] at hp
          exact ⟨M0 * N, j', hh.prim, p, m, q.1, q.2.1, q.2.2, by simp [Inst.result, hi, h0, hp, FNode.scene, e1, mkPrims_get, hq0, FNode.M, FNode.node], hpl, hpr, hm, hq, (app_mul _ _ _).symm,
            (app_mul _ _ _).symm, (app_mul _ _ _).symm⟩
  · intro j M face p1 p2 p3 hp
    obtain ⟨v, hv, p, m, q, rfl, hat, hm, hq, rfl, rfl, rfl⟩ := (placed_iff hw h _ _ _ _ _ _).mp hp
    rcases hex.cover M j ((mem_primsOf hpos).mpr ⟨hv, p, hat⟩) with ⟨k, hk⟩ | ⟨k, M0, j0, c, qs, N, hk, e1, hN, rfl⟩
    · refine ⟨none, k, face, _, ?_, (meshBuf_spec M (meshes m) _ _ _ _).mpr ⟨q, hq, rfl, rfl, rfl⟩⟩
      dsimp only
      rw [hS]
      exact List.mem_flatten.mpr ⟨_, List.mem_map.mpr ⟨_, hk, rfl⟩, by simp [nodeGeom, primGeom, hat, hm]⟩
    · obtain ⟨hc, -⟩ := (hex.mem _ hk).2 _ _ _ _ rfl
      obtain ⟨n, hn⟩ := List.getElem?_of_mem hN
      refine ⟨some k, n, face, M0, subScene st.nodes meshes qs, meshBuf N (meshes m), N.app q.1, N.app q.2.1, N.app q.2.2, ?_, mem_subScene.mpr ⟨N, j, j, p, m, hn, hat, hm, rfl⟩,
        (meshBuf_spec _ _ _ _ _ _).mpr ⟨q, hq, rfl, rfl, rfl⟩, app_mul _ _ _, app_mul _ _ _, app_mul _ _ _⟩
      dsimp only
      rw [hS]
      exact List.mem_flatten.mpr ⟨_, List.mem_map.mpr ⟨_, hk, rfl⟩, by simp [nodeGeom, hsub c hc qs e1]⟩

/-- C93. accel::embreeinstanced: on every scene built through the API whose traversal ends, the flattening ends, the build succeeds (no assertion fails and no index is out of range), whatever was built before, and every query
    is answered with the nearest placed surface. -/
theorem C93_instanced (isEnv : ℕ → Bool) (ops ops' : List (Op (Aff ℚ))) (hok : ∀ op ∈ ops, OpOk op) (hok' : ∀ op ∈ ops', OpOk op) (hnr : ∀ op ∈ ops', op ≠ .reset) (meshes : Meshes)
    (fuel : ℕ) (out : List (Int × Aff ℚ)) (h : traverse (run isEnv reset ops).nodes fuel = .done out) (old : Inst) :
    (∃ fst, iflatten (run isEnv reset ops).nodes (fuel + 1) = .done fst) ∧
    ∀ fuel' fst, iflatten (run isEnv reset ops).nodes fuel' = .done fst → ∃ A, Inst.build old (run isEnv reset ops).nodes meshes fst.scenes = some A ∧
      ∀ (r : Bound.Ray) (tmin tmax : ℚ) (res : Option LibHit), Reports A.scene r tmin tmax res →
        ∃ a, sceneResult (run isEnv reset (ops ++ ops')) meshes r tmax (A.result res) = .ret a ∧ AnswersAll (run isEnv reset ops).nodes meshes (run isEnv reset (ops ++ ops')).envLight r tmin tmax a := by
  have hw := C39_wellformed isEnv ops hok
  constructor
  · have hpos : ∀ i n, at? (run isEnv reset ops).nodes i = some n → n.index = i := by
      intro i n hn
      unfold at? at hn
      split at hn
      · cases hn
      · rw [hw.pos _ _ hn]; omega
    obtain ⟨fst, hf, -⟩ := C93_flatten_instances _ hpos fuel out h
    exact ⟨fst, hf⟩
  · intro fuel' fst hfl
    obtain ⟨A, hA, hf⟩ := Inst.faithful hw meshes h old hfl
    exact ⟨A, hA, fun r tmin tmax res hres => hf.answers hok hok' hnr hres⟩

/-! ### Comparing accelerators -/

/-- Two answers a user cannot tell apart by the point found: both surfaces at the same place, or the same answer. -/
def SamePlace : SHit → SHit → Prop
  | .surface _ p, .surface _ q => p = q
  | a, b => a = b

/-- C93. Any two right answers to the same query place the surface at the same point, or are both the environment or both nothing. With C93_embree, C93_nanort and C93_instanced: switching between these accelerators does not
    move what a ray sees. (At one point, surfaces of several primitives may coincide; which of them is reported is up to the library.) -/
theorem C93_agree {nodes : List (Scene.Node (Aff ℚ))} {meshes : Meshes} {env : Option Int} {r : Bound.Ray} {tmin tmax : ℚ} {a b : SHit} (ha : AnswersAll nodes meshes env r tmin tmax a) (hb : AnswersAll nodes meshes env r tmin tmax b) :
    SamePlace a b := by
  cases a with
  | surface j p =>
    obtain ⟨t, hm, rfl, h1, h2, hmin⟩ := ha
    cases b with
    | surface j' p' =>
      obtain ⟨t', hm', rfl, h1', h2', hmin'⟩ := hb
      have : t = t' := le_antisymm (hmin _ _ hm' h1' h2') (hmin' _ _ hm h1 h2)
      subst this
      rfl
    | env i wo => exact (hb.1 _ _ hm h1 h2).elim
    | miss => exact (hb.1 _ _ hm h1 h2).elim
  | env i wo =>
    obtain ⟨hno, ht, he, hwo⟩ := ha
    cases b with
    | surface j' p' =>
      obtain ⟨t', hm', -, h1', h2', -⟩ := hb
      exact (hno _ _ hm' h1' h2').elim
    | env i' wo' =>
      obtain ⟨-, -, he', hwo'⟩ := hb
      rw [he] at he'
      cases he'
      rw [hwo, hwo']
      rfl
    | miss =>
      obtain ⟨-, h⟩ := hb
      rcases h with h | h
      · exact absurd ht (not_le.mpr h)
      · rw [he] at h; cases h
  | miss =>
    obtain ⟨hno, h⟩ := ha
    cases b with
    | surface j' p' =>
      obtain ⟨t', hm', -, h1', h2', -⟩ := hb
      exact (hno _ _ hm' h1' h2').elim
    | env i' wo' =>
      obtain ⟨-, ht, he, -⟩ := hb
      rcases h with h | h
      · exact absurd ht (not_le.mpr h)
      · rw [he] at h; cases h
    | miss => rfl

theorem MeetsClearly.properly {nodes : List (Scene.Node (Aff ℚ))} {meshes : Meshes} {r : Bound.Ray} {j : Int} {t : ℚ} (h : MeetsClearly nodes meshes r j t) : MeetsProperly nodes meshes r j t := by
  obtain ⟨M, face, p1, p2, p3, u, v, hp, hh, hd⟩ := h
  exact ⟨M, face, p1, p2, p3, u, v, hp, hh, fun e => by rw [e, abs_zero] at hd; norm_num at hd⟩

/-- C93. The built-in accelerator agrees with them for every ray that meets no surface below its threshold in the range (Answers is what C89_closest_partial proves of accel::sahbvh). Missing: thin surfaces, for which
    C93_negation_thin shows that it differs. -/
theorem C93_agree_sahbvh_partial {nodes : List (Scene.Node (Aff ℚ))} {meshes : Meshes} {env : Option Int} {r : Bound.Ray} {tmin tmax : ℚ} {a b : SHit} (ha : AnswersAll nodes meshes env r tmin tmax a)
    (hb : Answers nodes meshes env r tmin tmax b) (hclear : ∀ j t, MeetsProperly nodes meshes r j t → tmin ≤ t → t ≤ tmax → MeetsClearly nodes meshes r j t) : SamePlace a b := by
  apply C93_agree ha
  cases b with
  | surface j p =>
    obtain ⟨t, hm, e, h1, h2, hmin⟩ := hb
    exact ⟨t, hm.properly, e, h1, h2, fun j' t' hm' h1' h2' => hmin j' t' (hclear j' t' hm' h1' h2') h1' h2'⟩
  | env i wo => exact ⟨fun j' t' hm' h1' h2' => hb.1 j' t' (hclear j' t' hm' h1' h2') h1' h2', hb.2⟩
  | miss => exact ⟨fun j' t' hm' h1' h2' => hb.1 j' t' (hclear j' t' hm' h1' h2') h1' h2', hb.2⟩

/-! ### The assumption on the libraries can be met -/

theorem hit_unique {p1 p2 p3 : V3 ℚ} {r : Bound.Ray} {t t' u u' v v' : ℚ} (hd : det p1 p2 p3 r ≠ 0) (h : HitAt p1 p2 p3 r t u v) (h' : HitAt p1 p2 p3 r t' u' v') : t = t' := by
  obtain ⟨-, -, -, e⟩ := h
  obtain ⟨-, -, -, e'⟩ := h'
  have ex := congrArg V3.x e
  have ey := congrArg V3.y e
  have ez := congrArg V3.z e
  have ex' := congrArg V3.x e'
  have ey' := congrArg V3.y e'
  have ez' := congrArg V3.z e'
  simp only [V3.add_x, V3.add_y, V3.add_z, V3.smul_x, V3.smul_y, V3.smul_z] at ex ey ez ex' ey' ez'
  have key : (t - t') * det p1 p2 p3 r = 0 := by
    simp only [det, V3.dot, V3.cross, V3.sub_x, V3.sub_y, V3.sub_z]
    linear_combination (((p3.y - p1.y) * (p2.z - p1.z) - (p3.z - p1.z) * (p2.y - p1.y))) * (ex - ex') + (((p3.z - p1.z) * (p2.x - p1.x) - (p3.x - p1.x) * (p2.z - p1.z))) * (ey - ey') +
      (((p3.x - p1.x) * (p2.y - p1.y) - (p3.y - p1.y) * (p2.x - p1.x))) * (ez - ez')
  rcases mul_eq_zero.mp key with h | h
  · exact sub_eq_zero.mp h
  · exact absurd h hd

theorem Faithful.finite {isEnv} {st : Scene.St (Aff ℚ)} (hw : WF isEnv st) {meshes : Meshes} {fuel : ℕ} {out : List (Int × Aff ℚ)} (h : traverse st.nodes fuel = .done out) {S : List (ℕ × Geom)}
    {result : Option LibHit → Out (Option AHit)} (hf : Faithful st.nodes meshes S result) (r : Bound.Ray) : {t | LibMeets S r t}.Finite := by
  let faces : Int × Aff ℚ → List (V3 ℚ × V3 ℚ × V3 ℚ) := fun v => match at? st.nodes v.1 with
    | some (.prim _ p) => match p.mesh with
      | some m => meshes m
      | none => []
    | _ => []
  let one : Int × Aff ℚ → V3 ℚ × V3 ℚ × V3 ℚ → Set ℚ := fun v q => {t | ∃ u w, HitAt (v.2.app q.1) (v.2.app q.2.1) (v.2.app q.2.2) r t u w ∧ det (v.2.app q.1) (v.2.app q.2.1) (v.2.app q.2.2) r ≠ 0}
  have hsub : {t | LibMeets S r t} ⊆ ⋃ v ∈ {v | v ∈ out}, ⋃ q ∈ {q | q ∈ faces v}, one v q := by
    rintro t ⟨inst, geom, prim, p1, p2, p3, u, w, ht, hh, hd⟩
    obtain ⟨M, j, face, p, m, q1, q2, q3, -, hpl, -⟩ := hf.sound ⟨t, u, w, inst, geom, prim⟩ p1 p2 p3 ht
    obtain ⟨v, hv, p, m, q, rfl, hat, hm, hq, rfl, rfl, rfl⟩ := (placed_iff hw h _ _ _ _ _ _).mp hpl
    simp only [Set.mem_iUnion, Set.mem_ofPred_eq]
    refine ⟨_, hv, q, ?_, u, w, hh, hd⟩
    dsimp only at hat
    simp only [faces, hat, hm]
    exact List.mem_of_getElem? hq
  refine Set.Finite.subset ?_ hsub
  refine Set.Finite.biUnion (List.finite_toSet out) fun v _ => Set.Finite.biUnion (List.finite_toSet (faces v)) fun q _ => Set.Subsingleton.finite ?_
  rintro t ⟨u, w, hh, hd⟩ t' ⟨u', w', hh', -⟩
  exact hit_unique hd hh hh'

/-- For every scene and ray there is an answer a library may give. -/
theorem Faithful.possible {isEnv} {st : Scene.St (Aff ℚ)} (hw : WF isEnv st) {meshes : Meshes} {fuel : ℕ} {out : List (Int × Aff ℚ)} (h : traverse st.nodes fuel = .done out) {S : List (ℕ × Geom)}
    {result : Option LibHit → Out (Option AHit)} (hf : Faithful st.nodes meshes S result) (r : Bound.Ray) (tmin tmax : ℚ) : ∃ res, Reports S r tmin tmax res := by
  have hfin : {t | LibMeets S r t ∧ tmin ≤ t ∧ t ≤ tmax}.Finite := (hf.finite hw h r).subset fun t ht => ht.1
  by_cases hne : {t | LibMeets S r t ∧ tmin ≤ t ∧ t ≤ tmax}.Nonempty
  · obtain ⟨t, ⟨⟨inst, geom, prim, p1, p2, p3, u, v, ht, hh, hd⟩, h1, h2⟩, hmin⟩ := Set.exists_min_image _ id hfin hne
    exact ⟨some ⟨t, u, v, inst, geom, prim⟩, ⟨p1, p2, p3, ht, hh, hd⟩, h1, h2, fun t' h' a b => hmin t' ⟨h', a, b⟩⟩
  · exact ⟨none, fun t h' a b => hne ⟨t, h', a, b⟩⟩

/-- C93 (remark). The assumption on the libraries is satisfiable for every built scene, every ray and every range. -/
theorem C93_remark_possible (isEnv : ℕ → Bool) (ops : List (Op (Aff ℚ))) (hok : ∀ op ∈ ops, OpOk op) (meshes : Meshes) (fuel : ℕ) (out : List (Int × Aff ℚ))
    (h : traverse (run isEnv reset ops).nodes fuel = .done out) (r : Bound.Ray) (tmin tmax : ℚ) :
    (∀ old, ∃ res, Reports (Embree.build old (run isEnv reset ops).nodes meshes out).scene r tmin tmax res) ∧
    (∀ old, ∃ res, Reports [(0, .mesh (Nano.build old (run isEnv reset ops).nodes meshes out).buf)] r tmin tmax res) ∧
    ∀ old fuel' fst A, iflatten (run isEnv reset ops).nodes fuel' = .done fst → Inst.build old (run isEnv reset ops).nodes meshes fst.scenes = some A → ∃ res, Reports A.scene r tmin tmax res := by
  have hw := C39_wellformed isEnv ops hok
  refine ⟨fun old => (Embree.faithful hw meshes h old).possible hw h r tmin tmax, fun old => (Nano.faithful hw meshes h old).possible hw h r tmin tmax, fun old fuel' fst A hfl hA => ?_⟩
  obtain ⟨A', hA', hf⟩ := Inst.faithful hw meshes h old hfl
  rw [hA] at hA'
  cases hA'
  exact hf.possible hw h r tmin tmax

/-! ### Where the accelerators differ -/

/-- C93 (negation). The choice of the accelerator is visible: there is a scene with one small triangle and a ray such that accel::embree, accel::nanort and accel::embreeinstanced find it at distance 1, whatever was built before and
    whatever the library reports within its contract, while no build of accel::sahbvh ever finds it (the built-in triangle test ignores triangles whose determinant is below 1e-8). -/
theorem C93_negation_thin : ∃ (ops : List (Op (Aff ℚ))) (meshes : Meshes) (r : Bound.Ray) (out : List (Int × Aff ℚ)) (fst : FSt (Aff ℚ)), (∀ op ∈ ops, OpOk op) ∧
    traverse (run (fun _ => false) reset ops).nodes 5 = .done out ∧ iflatten (run (fun _ => false) reset ops).nodes 6 = .done fst ∧
    (∀ old res, Reports (Embree.build old (run (fun _ => false) reset ops).nodes meshes out).scene r 0 2 res →
      ∃ j, sceneResult (run (fun _ => false) reset ops) meshes r 2 ((Embree.build old (run (fun _ => false) reset ops).nodes meshes out).result res) = .ret (.surface j (r.o + (1 : ℚ) • r.d))) ∧
    (∀ old res, Reports [(0, .mesh (Nano.build old (run (fun _ => false) reset ops).nodes meshes out).buf)] r 0 2 res →
      ∃ j, sceneResult (run (fun _ => false) reset ops) meshes r 2 ((Nano.build old (run (fun _ => false) reset ops).nodes meshes out).result res) = .ret (.surface j (r.o + (1 : ℚ) • r.d))) ∧
    (∀ old, ∃ A, Inst.build old (run (fun _ => false) reset ops).nodes meshes fst.scenes = some A ∧ ∀ res, Reports A.scene r 0 2 res →
      ∃ j, sceneResult (run (fun _ => false) reset ops) meshes r 2 (A.result res) = .ret (.surface j (r.o + (1 : ℚ) • r.d))) ∧
    ∀ A, Built (run (fun _ => false) reset ops).nodes meshes A → ∀ fuel o, sceneIntersect (run (fun _ => false) reset ops) meshes A r 0 2 fuel = some o → ∀ j p, o ≠ .ret (.surface j p) := by
  obtain ⟨p1, p2, p3, r, hd0, hh, hno⟩ := C35_negation_small
  have hd : |det p1 p2 p3 r| < 1 / 10 ^ 8 := by
    by_contra hc
    rw [C35_complete_partial p1 p2 p3 r 0 2 1 (1/4) (1/4) (not_lt.mp hc) hh (by norm_num) (by norm_num)] at hno
    cases hno
  have happ : ∀ p : V3 ℚ, (1 : Aff ℚ).app p = p := fun p => by ext <;> simp [Aff.app, Aff.lin, Aff.one_def]
  let ops : List (Op (Aff ℚ)) := [.createPrimitive ⟨some 0, some 0, none, none, none⟩, .addChild 0 1]
  have hok : ∀ op ∈ ops, OpOk op := by
    intro op hop
    simp [ops] at hop
    rcases hop with rfl | rfl <;> trivial
  have ht : traverse (run (fun _ => false) reset ops).nodes 5 = .done [(0, 1), (1, 1)] := rfl
  have hn1 : at? (run (fun _ => false) reset ops).nodes 1 = some (.prim 1 ⟨some 0, some 0, none, none, none⟩) := rfl
  have hw := C39_wellformed (fun _ => false) ops hok
  have only : ∀ j M face a b c, Placed (run (fun _ => false) reset ops).nodes (fun _ => [(p1, p2, p3)]) j M face a b c ↔ j = 1 ∧ M = 1 ∧ face = 0 ∧ a = p1 ∧ b = p2 ∧ c = p3 := by
    intro j M face a b c
    rw [placed_iff hw ht]
    constructor
    · rintro ⟨v, hv, p, m, q, rfl, h1, h2, h3, e1, e2, e3⟩
      simp only [List.mem_cons, List.not_mem_nil, or_false, Prod.mk.injEq] at hv
      rcases hv with ⟨rfl, rfl⟩ | ⟨rfl, rfl⟩
      · cases h1
      · have hf : face = 0 := by
          have := (List.getElem?_eq_some_iff.mp h3).1
          simpa using this
        subst hf
        simp only [List.getElem?_cons_zero, Option.some.injEq] at h3
        subst h3
        rw [happ] at e1 e2 e3
        exact ⟨rfl, rfl, rfl, e1, e2, e3⟩
    · rintro ⟨rfl, rfl, rfl, rfl, rfl, rfl⟩
      exact ⟨(1, 1), by simp, _, 0, (a, b, c), rfl, hn1, rfl, rfl, (happ a).symm, (happ b).symm, (happ c).symm⟩
  have hmeet : MeetsProperly (run (fun _ => false) reset ops).nodes (fun _ => [(p1, p2, p3)]) r 1 1 := ⟨1, 0, p1, p2, p3, 1/4, 1/4, (only _ _ _ _ _ _).mpr ⟨rfl, rfl, rfl, rfl, rfl, rfl⟩, hh, hd0⟩
  have fin : ∀ a, AnswersAll (run (fun _ => false) reset ops).nodes (fun _ => [(p1, p2, p3)]) (run (fun _ => false) reset ops).envLight r 0 2 a → ∃ j, a = .surface j (r.o + (1 : ℚ) • r.d) := by
    intro a ha
    cases a with
    | miss => exact (ha.1 1 1 hmeet (by norm_num) (by norm_num)).elim
    | env i wo => exact (ha.1 1 1 hmeet (by norm_num) (by norm_num)).elim
    | surface j p =>
      obtain ⟨t, ⟨M, face, a, b, c, u, v, hp, hh', -⟩, rfl, -⟩ := ha
      obtain ⟨-, -, -, rfl, rfl, rfl⟩ := (only _ _ _ _ _ _).mp hp
      rw [hit_unique hd0 hh' hh]
      exact ⟨j, rfl⟩
  refine ⟨ops, fun _ => [(p1, p2, p3)], r, _, _, hok, ht, rfl, fun old res hres => ?_, fun old res hres => ?_, fun old => ?_, ?_⟩
  · obtain ⟨a, ha, hans⟩ := C93_embree (fun _ => false) ops [] hok (by simp) (by simp) _ 5 _ ht old _ rfl r 0 2 res hres
    rw [List.append_nil] at ha hans
    obtain ⟨j, rfl⟩ := fin a hans
    exact ⟨j, ha⟩
  · obtain ⟨a, ha, hans⟩ := C93_nanort (fun _ => false) ops [] hok (by simp) (by simp) _ 5 _ ht old _ rfl r 0 2 res hres
    rw [List.append_nil] at ha hans
    obtain ⟨j, rfl⟩ := fin a hans
    exact ⟨j, ha⟩
  · obtain ⟨-, hI⟩ := C93_instanced (fun _ => false) ops [] hok (by simp) (by simp) (fun _ => [(p1, p2, p3)]) 5 _ ht old
    obtain ⟨A, hA, hq⟩ := hI 6 _ rfl
    refine ⟨A, hA, fun res hres => ?_⟩
    obtain ⟨a, ha, hans⟩ := hq r 0 2 res hres
    rw [List.append_nil] at ha hans
    obtain ⟨j, rfl⟩ := fin a hans
    exact ⟨j, ha⟩
  · rintro A hA fuel o ho j p rfl
    have := C89_closest_partial (fun _ => false) ops [] hok (by simp) (by simp) _ A hA r 0 2 fuel _ (by rw [List.append_nil]; exact ho)
    rcases this with ⟨a, ha, hans⟩ | ⟨h, _⟩
    · cases ha
      obtain ⟨t, ⟨M, face, a, b, c, u, v, hp, _, hd'⟩, -⟩ := hans
      obtain ⟨-, -, -, rfl, rfl, rfl⟩ := (only _ _ _ _ _ _).mp hp
      exact absurd hd (not_lt.mpr hd')
    · cases h

/-! ### A scene with instances: an instance group with one triangle, placed twice -/

def exInst : List (Op (Aff ℚ)) :=
  [.createInstanceGroup, .createGroup ⟨⟨1, 0, 0⟩, ⟨0, 1, 0⟩, ⟨0, 0, 1⟩, ⟨0, 0, 5⟩⟩, .createGroup ⟨⟨2, 0, 0⟩, ⟨0, 2, 0⟩, ⟨0, 0, 2⟩, ⟨0, 0, 3⟩⟩, .createPrimitive ⟨some 0, some 0, none, none, none⟩,
   .addChild 1 4, .addChild 2 1, .addChild 3 1, .addChild 0 2, .addChild 0 3]

/-- The triangle is handed to the library once, with two instances of it, and every query with the ray that meets both copies (at the distances 5 and 3) is answered with the nearer one. -/
example : ∃ fst A, (∀ op ∈ exInst, OpOk op) ∧ iflatten (run (fun _ => false) reset exInst).nodes 6 = .done fst ∧ fst.scenes.map List.length = [2, 1] ∧
    Inst.build ⟨[], []⟩ (run (fun _ => false) reset exInst).nodes exMeshes fst.scenes = some A ∧ (∃ res, Reports A.scene exRay 0 100 res) ∧
    ∀ res, Reports A.scene exRay 0 100 res → sceneResult (run (fun _ => false) reset exInst) exMeshes exRay 100 (A.result res) = .ret (.surface 4 ⟨1/4, 1/4, 3⟩) := by
  have hok : ∀ op ∈ exInst, OpOk op := by
    intro op hop
    simp [exInst] at hop
    rcases hop with rfl | rfl | rfl | rfl | rfl | rfl | rfl | rfl | rfl <;> trivial
  let T1 : Aff ℚ := ⟨⟨1, 0, 0⟩, ⟨0, 1, 0⟩, ⟨0, 0, 1⟩, ⟨0, 0, 5⟩⟩
  let T2 : Aff ℚ := ⟨⟨2, 0, 0⟩, ⟨0, 2, 0⟩, ⟨0, 0, 2⟩, ⟨0, 0, 3⟩⟩
  have ht : traverse (run (fun _ => false) reset exInst).nodes 5 = .done [(0, 1), (2, 1), (1, 1 * T1), (4, 1 * T1), (3, 1), (1, 1 * T2), (4, 1 * T2)] := rfl
  have hn4 : at? (run (fun _ => false) reset exInst).nodes 4 = some (.prim 4 ⟨some 0, some 0, none, none, none⟩) := rfl
  have hw := C39_wellformed (fun _ => false) exInst hok
  obtain ⟨-, hI⟩ := C93_instanced (fun _ => false) exInst [] hok (by simp) (by simp) exMeshes 5 _ ht ⟨[], []⟩
  obtain ⟨A, hA, hq⟩ := hI 6 _ rfl
  refine ⟨_, A, hok, rfl, rfl, hA, (C93_remark_possible (fun _ => false) exInst hok exMeshes 5 _ ht exRay 0 100).2.2 _ 6 _ A rfl hA, fun res hres => ?_⟩
  obtain ⟨a, ha, hans⟩ := hq exRay 0 100 res hres
  rw [List.append_nil] at ha hans
  rw [ha]
  have near : MeetsProperly (run (fun _ => false) reset exInst).nodes exMeshes exRay 4 3 := by
    refine ⟨1 * T2, 0, ⟨0, 0, 3⟩, ⟨2, 0, 3⟩, ⟨0, 2, 3⟩, 1/8, 1/8, (placed_iff hw ht _ _ _ _ _ _).mpr ⟨(4, 1 * T2), by simp, _, 0, (⟨0, 0, 0⟩, ⟨1, 0, 0⟩, ⟨0, 1, 0⟩), rfl, hn4, rfl, rfl, ?_, ?_, ?_⟩, ?_, ?_⟩
    · rw [one_mul]; ext <;> simp [T2, Aff.app, Aff.lin]
    · rw [one_mul]; ext <;> simp [T2, Aff.app, Aff.lin]
    · rw [one_mul]; ext <;> simp [T2, Aff.app, Aff.lin]
    · refine ⟨by norm_num, by norm_num, by norm_num, ?_⟩
      ext <;> simp [exRay] <;> norm_num
    · simp [det, exRay, V3.dot, V3.cross]
  cases a with
  | miss => exact absurd (hans.1 4 3 near (by norm_num) (by norm_num)) id
  | env i wo => exact absurd (hans.1 4 3 near (by norm_num) (by norm_num)) id
  | surface j p =>
    obtain ⟨t, ⟨M, face, p1, p2, p3, u, v, hp, hh, -⟩, rfl, h0, h1, hmin⟩ := hans
    have hle := hmin 4 3 near (by norm_num) (by norm_num)
    obtain ⟨w, hw', p, m, q, rfl, a1, a2, a3, e1, e2, e3⟩ := (placed_iff hw ht _ _ _ _ _ _).mp hp
    have hf : face = 0 := by
      have := (List.getElem?_eq_some_iff.mp a3).1
      simpa [exMeshes] using this
    subst hf
    simp only [exMeshes, List.getElem?_cons_zero, Option.some.injEq] at a3
    subst a3
    have hz := congrArg V3.z hh.2.2.2
    simp only [List.mem_cons, List.not_mem_nil, or_false, Prod.mk.injEq] at hw'
    rcases hw' with ⟨rfl, rfl⟩ | ⟨rfl, rfl⟩ | ⟨rfl, rfl⟩ | ⟨rfl, rfl⟩ | ⟨rfl, rfl⟩ | ⟨rfl, rfl⟩ | ⟨rfl, rfl⟩
    · cases a1
    · cases a1
    · cases a1
    · rw [one_mul] at e1 e2 e3
      subst e1 e2 e3
      simp [T1, exRay, Aff.app, Aff.lin] at hz
      linarith
    · cases a1
    · cases a1
    · rw [one_mul] at e1 e2 e3
      subst e1 e2 e3
      simp [T2, exRay, Aff.app, Aff.lin] at hz
      have : t = 3 := by linarith
      subst this
      congr 2
      ext <;> simp [exRay]

end LM.Accel
