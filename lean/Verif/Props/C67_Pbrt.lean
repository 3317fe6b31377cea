import Verif.Props.C67_Mesh
/-
  C67 for the meshes of model::pbrt: one index per corner selects the position, the normal and the texture coordinates; a mesh has normals (texture coordinates) for all its vertices or for none.
-/
namespace LM.Mesh
open LM LM.Obj LM.Material LM.MathF LM.Surface

/-- An attribute the mesh does not have at all takes the default value. -/
def ReadsIfAny {α : Type} (l : List α) (i : Int) (d v : α) : Prop := (l = [] ∧ v = d) ∨ (l ≠ [] ∧ Reads l i v)

/-- The vertex number i of a mesh. -/
def PbrtVertex (m : PbrtMesh) (i : Int) (q : Point) : Prop := Reads m.vertex i q.p ∧ ReadsIfAny m.normal i 0 q.n ∧ ReadsIfAny m.texcoord i (0, 0) q.t

theorem orEmpty_iff {α : Type} (d : α) (l : List α) (i : Int) (v : α) : orEmpty d l i = some v ↔ ReadsIfAny l i d v := by
  unfold orEmpty ReadsIfAny
  cases l with
  | nil => simp [eq_comm]
  | cons a l => simp [at_iff]

theorem pbrtPoint_iff (m : PbrtMesh) (i : Int) (q : Point) : pbrtPoint m i = some q ↔ PbrtVertex m i q := by
  unfold PbrtVertex
  rw [← at_iff, ← orEmpty_iff, ← orEmpty_iff]
  unfold pbrtPoint
  obtain ⟨p, n, t⟩ := q
  rcases at' m.vertex i with _ | p' <;> rcases orEmpty 0 m.normal i with _ | n' <;> rcases orEmpty (0, 0) m.texcoord i with _ | t' <;> simp

/-- C67. triangle_at of mesh::pbrt returns the three vertices the index triple names, and is defined exactly when the triple exists and its indices lie in the arrays the mesh has. -/
theorem C67_triangle_pbrt (m : PbrtMesh) (face : Nat) (t : Tri3) : pbrtTriangleAt m face = some t ↔
    ∃ x y z, m.index[face]? = some (x, y, z) ∧ PbrtVertex m x t.p1 ∧ PbrtVertex m y t.p2 ∧ PbrtVertex m z t.p3 := by
  unfold pbrtTriangleAt
  obtain ⟨t1, t2, t3⟩ := t
  simp only [← pbrtPoint_iff]
  constructor
  · intro h
    obtain ⟨⟨x, y, z⟩, hc, h⟩ := Option.bind_eq_some_iff.mp h
    obtain ⟨p1, h1, h⟩ := Option.bind_eq_some_iff.mp h
    obtain ⟨p2, h2, h⟩ := Option.bind_eq_some_iff.mp h
    obtain ⟨p3, h3, h⟩ := Option.bind_eq_some_iff.mp h
    cases h
    exact ⟨x, y, z, hc, h1, h2, h3⟩
  · rintro ⟨x, y, z, hc, h1, h2, h3⟩
    simp [hc, h1, h2, h3]

/-- C67. foreach_triangle of mesh::pbrt calls back once per index triple, in order, with what triangle_at returns; num_triangles is the number of calls. -/
theorem C67_foreach_pbrt (m : PbrtMesh) (calls : List (Nat × Tri3)) : pbrtForeachTriangle m = some calls ↔
    (calls.length = pbrtNumTriangles m ∧ pbrtNumTriangles m = m.index.length ∧ ∀ i < pbrtNumTriangles m, ∃ t, calls[i]? = some (i, t) ∧ pbrtTriangleAt m i = some t) := by
  unfold pbrtForeachTriangle
  rw [mapM_range_iff]
  constructor
  · rintro ⟨hl, h⟩
    refine ⟨hl, rfl, fun i hi => ?_⟩
    obtain ⟨b, h1, h2⟩ := h i hi
    obtain ⟨t, ht, rfl⟩ := Option.map_eq_some_iff.mp h2
    exact ⟨t, h1, ht⟩
  · rintro ⟨hl, hn, h⟩
    refine ⟨hl.trans hn, fun i hi => ?_⟩
    obtain ⟨t, h1, h2⟩ := h i (hn ▸ hi)
    exact ⟨(i, t), h1, by rw [h2]; rfl⟩

/-- The indices lie in the vertex array, and the mesh has normals (texture coordinates) for every vertex or none at all. -/
structure PbrtValid (m : PbrtMesh) : Prop where
  index : ∀ x y z, (x, y, z) ∈ m.index → ∀ i, i = x ∨ i = y ∨ i = z → 0 ≤ i ∧ i < m.vertex.length
  normal : m.normal = [] ∨ m.normal.length = m.vertex.length
  texcoord : m.texcoord = [] ∨ m.texcoord.length = m.vertex.length

theorem readsIfAny_exists {α : Type} (l : List α) (i : Int) (d : α) (n : Nat) (h : l = [] ∨ l.length = n) (h0 : 0 ≤ i) (h1 : i < n) : ∃ v, ReadsIfAny l i d v := by
  by_cases e : l = []
  · exact ⟨d, Or.inl ⟨e, rfl⟩⟩
  · obtain ⟨v, hv⟩ := reads_exists l i h0 (by rw [h.resolve_left e]; exact h1)
    exact ⟨v, Or.inr ⟨e, hv⟩⟩

theorem pbrtVertex_exists (m : PbrtMesh) (hv : PbrtValid m) (i : Int) (h0 : 0 ≤ i) (h1 : i < m.vertex.length) : ∃ q, PbrtVertex m i q := by
  obtain ⟨p, hp⟩ := reads_exists m.vertex i h0 h1
  obtain ⟨n, hn⟩ := readsIfAny_exists m.normal i 0 _ hv.normal h0 h1
  obtain ⟨t, ht⟩ := readsIfAny_exists m.texcoord i (0, 0) _ hv.texcoord h0 h1
  exact ⟨⟨p, n, t⟩, hp, hn, ht⟩

/-- C67. On a valid mesh the enumeration of mesh::pbrt is defined, and surface_point is defined on every triangle with non-collinear corners whose interpolated normal does not vanish. -/
theorem C67_defined_pbrt (m : PbrtMesh) (hv : PbrtValid m) :
    (∃ calls, pbrtForeachTriangle m = some calls) ∧
    ∀ face t u v, pbrtTriangleAt m face = some t → V3.cross (t.p2.p - t.p1.p) (t.p3.p - t.p1.p) ≠ 0 →
      (m.normal ≠ [] → (1 - u - v) • t.p1.n + u • t.p2.n + v • t.p3.n ≠ 0) → ∃ s, pbrtSurfacePoint m face u v = some s := by
  have nz : ∀ w : V3 ℝ, w ≠ 0 → ∃ x, Material.normalize w = some x := by
    intro w hw
    unfold Material.normalize
    rw [if_neg (fun h => hw (dot_self_zero h))]
    exact ⟨_, rfl⟩
  constructor
  · unfold pbrtForeachTriangle
    apply mapM_range_some
    intro i hi
    rcases hx : m.index[i] with ⟨x, y, z⟩
    have hx' : m.index[i]? = some (x, y, z) := by rw [List.getElem?_eq_getElem hi, hx]
    have hm := hv.index x y z (List.mem_of_getElem? hx')
    obtain ⟨p1, h1⟩ := pbrtVertex_exists m hv x (hm x (Or.inl rfl)).1 (hm x (Or.inl rfl)).2
    obtain ⟨p2, h2⟩ := pbrtVertex_exists m hv y (hm y (Or.inr (Or.inl rfl))).1 (hm y (Or.inr (Or.inl rfl))).2
    obtain ⟨p3, h3⟩ := pbrtVertex_exists m hv z (hm z (Or.inr (Or.inr rfl))).1 (hm z (Or.inr (Or.inr rfl))).2
    exact ⟨(i, ⟨p1, p2, p3⟩), by rw [(C67_triangle_pbrt m i ⟨p1, p2, p3⟩).mpr ⟨x, y, z, hx', h1, h2, h3⟩]; rfl⟩
  · intro face t u v ht hp hn
    obtain ⟨x, y, z, hx, ⟨v1, n1, t1⟩, ⟨v2, n2, t2⟩, ⟨v3, n3, t3⟩⟩ := (C67_triangle_pbrt m face t).mp ht
    rw [← at_iff] at v1 v2 v3
    obtain ⟨gn, hgn⟩ : ∃ gn, Light.geometryNormal ⟨t.p1.p, t.p2.p, t.p3.p⟩ = some gn := nz _ hp
    obtain ⟨n, hnn⟩ : ∃ n, pbrtNormal m x y z gn u v = some n := by
      unfold pbrtNormal
      by_cases e : m.normal = []
      · simp [e]
      · rw [if_neg (by simpa using e), (at_iff _ _ _).mpr (n1.resolve_left (fun h => e h.1)).2, (at_iff _ _ _).mpr (n2.resolve_left (fun h => e h.1)).2, (at_iff _ _ _).mpr (n3.resolve_left (fun h => e h.1)).2]
        exact nz _ (hn e)
    obtain ⟨tt, htt⟩ : ∃ tt, pbrtTex m x y z u v = some tt := by
      unfold pbrtTex
      by_cases e : m.texcoord = []
      · simp [e]
      · rw [if_neg (by simpa using e), (at_iff _ _ _).mpr (t1.resolve_left (fun h => e h.1)).2, (at_iff _ _ _).mpr (t2.resolve_left (fun h => e h.1)).2, (at_iff _ _ _).mpr (t3.resolve_left (fun h => e h.1)).2]
        exact ⟨_, rfl⟩
    unfold pbrtSurfacePoint
    simp [hx, v1, v2, v3, hgn, hnn, htt]

/-- C67. surface_point of mesh::pbrt interpolates the vertices triangle_at returns: the position and the texture coordinates linearly, the normals linearly up to length. A mesh without normals has its face
    normals instead, and a mesh without texture coordinates has zero. -/
theorem C67_surface_pbrt (m : PbrtMesh) (face : Nat) (u v : ℝ) (s : Interp) (t : Tri3) (h : pbrtSurfacePoint m face u v = some s) (ht : pbrtTriangleAt m face = some t) :
    Interpolates s t.p1.p t.p2.p t.p3.p u v ∧
      (m.normal = [] → s.n = s.gn) ∧
      (m.normal ≠ [] → ∃ c : ℝ, 0 < c ∧ (1 - u - v) • t.p1.n + u • t.p2.n + v • t.p3.n = c • s.n) ∧
      s.t = ((1 - u - v) * t.p1.t.1 + u * t.p2.t.1 + v * t.p3.t.1, (1 - u - v) * t.p1.t.2 + u * t.p2.t.2 + v * t.p3.t.2) := by
  obtain ⟨x, y, z, hx, ⟨v1, n1, t1⟩, ⟨v2, n2, t2⟩, ⟨v3, n3, t3⟩⟩ := (C67_triangle_pbrt m face t).mp ht
  rw [← at_iff] at v1 v2 v3
  unfold pbrtSurfacePoint at h
  rw [hx] at h
  simp only [Option.bind_eq_bind, Option.bind_some, v1, v2, v3] at h
  obtain ⟨gn, hgn, h⟩ := Option.bind_eq_some_iff.mp h
  obtain ⟨n, hn, h⟩ := Option.bind_eq_some_iff.mp h
  obtain ⟨tt, htt, h⟩ := Option.bind_eq_some_iff.mp h
  cases h
  have hN : V3.dot n n = 1 ∧ (m.normal = [] → n = gn) ∧ (m.normal ≠ [] → ∃ c : ℝ, 0 < c ∧ (1 - u - v) • t.p1.n + u • t.p2.n + v • t.p3.n = c • n) := by
    unfold pbrtNormal at hn
    by_cases e : m.normal = []
    · rw [if_pos (by simpa using e)] at hn
      cases hn
      exact ⟨(faceNormal_of hgn).1, fun _ => rfl, fun h => absurd e h⟩
    · rw [if_neg (by simpa using e), (at_iff _ _ _).mpr (n1.resolve_left (fun h => e h.1)).2, (at_iff _ _ _).mpr (n2.resolve_left (fun h => e h.1)).2, (at_iff _ _ _).mpr (n3.resolve_left (fun h => e h.1)).2] at hn
      obtain ⟨hu, k⟩ := normalize_spec hn
      exact ⟨hu, fun h => absurd h e, fun _ => k⟩
  have hT : tt = ((1 - u - v) * t.p1.t.1 + u * t.p2.t.1 + v * t.p3.t.1, (1 - u - v) * t.p1.t.2 + u * t.p2.t.2 + v * t.p3.t.2) := by
    unfold pbrtTex at htt
    by_cases e : m.texcoord = []
    · rw [if_pos (by simpa using e)] at htt
      cases htt
      have z : ∀ {i q}, ReadsIfAny m.texcoord i (0, 0) q → q = (0, 0) := fun h => (h.resolve_right (fun k => k.1 e)).2
      rw [z t1, z t2, z t3]
      simp
    · rw [if_neg (by simpa using e), (at_iff _ _ _).mpr (t1.resolve_left (fun h => e h.1)).2, (at_iff _ _ _).mpr (t2.resolve_left (fun h => e h.1)).2, (at_iff _ _ _).mpr (t3.resolve_left (fun h => e h.1)).2] at htt
      cases htt
      rfl
  exact ⟨⟨rfl, faceNormal_of hgn, hN.1⟩, hN.2.1, hN.2.2, hT⟩

/-- One triangle with texture coordinates and no normals. -/
noncomputable def exPbrt : PbrtMesh := ⟨[⟨0, 0, 0⟩, ⟨1, 0, 0⟩, ⟨0, 1, 0⟩], [], [(0, 0), (1, 0), (0, 1)], [(2, 0, 1)]⟩

theorem exPbrt_valid : PbrtValid exPbrt := by
  refine ⟨?_, Or.inl rfl, Or.inr rfl⟩
  intro x y z h i hi
  simp only [exPbrt, List.mem_cons, List.not_mem_nil, or_false, Prod.mk.injEq] at h
  obtain ⟨rfl, rfl, rfl⟩ := h
  rcases hi with rfl | rfl | rfl <;> simp [exPbrt]

theorem exPbrt_tri : pbrtTriangleAt exPbrt 0 = some ⟨⟨⟨0, 1, 0⟩, 0, (0, 1)⟩, ⟨⟨0, 0, 0⟩, 0, (0, 0)⟩, ⟨⟨1, 0, 0⟩, 0, (1, 0)⟩⟩ := rfl

/-- The hypotheses of the theorems above are met: surface_point of the example is defined everywhere and has the expected texture coordinates. -/
example (u v : ℝ) : ∃ s, pbrtSurfacePoint exPbrt 0 u v = some s ∧ s.n = s.gn ∧ s.t = (v, 1 - u - v) := by
  obtain ⟨s, hs⟩ := (C67_defined_pbrt exPbrt exPbrt_valid).2 0 _ u v exPbrt_tri (by intro h; have := congrArg V3.z h; norm_num [V3.cross] at this) (fun h => absurd rfl h)
  obtain ⟨-, h2, -, h4⟩ := C67_surface_pbrt exPbrt 0 u v s _ hs exPbrt_tri
  exact ⟨s, hs, h2 rfl, by rw [h4]; simp⟩

end LM.Mesh
