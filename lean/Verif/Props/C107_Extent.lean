import Verif.Model.SceneBound
import Verif.Model.Flatten
import Verif.Props.C30_Bound
import Verif.Props.C46_Path
import Verif.Props.C89_Query
/-
  C107: the extent of the scene as the lights at infinity know it.
-/
namespace LM.SceneBound
open LM LM.Scene LM.Bound LM.Surface LM.Light

/-! ### Specification -/

section Spec
variable {K : Type} [Field K] [LinearOrder K]

/-- (T p1, T p2, T p3) is a triangle of the scene: a face of the mesh of a primitive, under the product T of the transforms of the groups on some path from the root to the primitive. -/
def SceneTri (nodes : List (Node (Aff K))) (meshes : Corners K) (a b c : V3 K) : Prop :=
  ∃ path j ts p m t, Follows nodes 0 path j ts ∧ primAt nodes j = some p ∧ p.mesh = some m ∧ t ∈ meshes m ∧ a = ts.prod.app t.1 ∧ b = ts.prod.app t.2.1 ∧ c = ts.prod.app t.2.2

/-- A point on some triangle of the scene. -/
def OnScene (nodes : List (Node (Aff K))) (meshes : Corners K) (x : V3 K) : Prop :=
  ∃ a b c, SceneTri nodes meshes a b c ∧ ∃ α β γ : K, 0 ≤ α ∧ 0 ≤ β ∧ 0 ≤ γ ∧ α + β + γ = 1 ∧ x = α • a + β • b + γ • c

/-- Light k belongs to a primitive of the scene that can be reached from the root. -/
def HasLight (nodes : List (Node (Aff K))) (k : ℕ) : Prop := ∃ path j ts p, Follows nodes 0 path j ts ∧ primAt nodes j = some p ∧ p.light = some k
end Spec

/-- A call that does not build a scene that has light k. -/
def Leaves (k : ℕ) (w : World) : Call → Prop
  | .edit _ _ => True
  | .build s _ => ¬ HasLight (w.scenes s).nodes k

/-- From w the calls cs lead to w', all of them returning normally and none of them building a scene that has light k. -/
inductive Later (isEnv infinite : ℕ → Bool) (meshes : Corners ℝ) (k : ℕ) : World → List Call → World → Prop
  | nil (w) : Later isEnv infinite meshes k w [] w
  | cons (w c w1 cs w2) (h : step isEnv infinite meshes w c = some w1) (hl : Leaves k w c) (ht : Later isEnv infinite meshes k w1 cs w2) : Later isEnv infinite meshes k w (c :: cs) w2

/-- The calls respect the contract of C39: models enumerate their nodes with their own indices. -/
def CallOk : Call → Prop
  | .edit _ op => OpOk op
  | .build _ _ => True

/-! ### The box -/

section Box
variable {K : Type} [Field K] [LinearOrder K]

theorem in_mergeP {q p : V3 K} {b : Box K} (h : In q b) : In q (mergeP b p) := (C30_merge_contains b b p).2.2 q h
theorem in_mergeP_self (p : V3 K) (b : Box K) : In p (mergeP b p) := (C30_merge_contains b b p).2.1

theorem triStep_in (M : Aff K) (b : Box K) (t) : (∀ q, In q b → In q (triStep M b t)) ∧ In (M.app t.1) (triStep M b t) ∧ In (M.app t.2.1) (triStep M b t) ∧ In (M.app t.2.2) (triStep M b t) :=
  ⟨fun _ h => in_mergeP (in_mergeP (in_mergeP h)), in_mergeP (in_mergeP (in_mergeP_self _ _)), in_mergeP (in_mergeP_self _ _), in_mergeP_self _ _⟩

theorem tris_in (M : Aff K) (l : List (V3 K × V3 K × V3 K)) : ∀ b : Box K, (∀ q, In q b → In q (l.foldl (triStep M) b)) ∧
    ∀ t ∈ l, In (M.app t.1) (l.foldl (triStep M) b) ∧ In (M.app t.2.1) (l.foldl (triStep M) b) ∧ In (M.app t.2.2) (l.foldl (triStep M) b) := by
  induction l with
  | nil => intro b; exact ⟨fun _ h => h, by simp⟩
  | cons t l ih =>
    intro b
    obtain ⟨h1, h2⟩ := ih (triStep M b t)
    obtain ⟨k0, k1, k2, k3⟩ := triStep_in M b t
    refine ⟨fun q h => h1 q (k0 q h), ?_⟩
    intro t' ht'
    rcases List.mem_cons.mp ht' with rfl | ht'
    · exact ⟨h1 _ k1, h1 _ k2, h1 _ k3⟩
    · exact h2 t' ht'

/-- The corners of a visited node. -/
def cornersOf (nodes : List (Node (Aff K))) (meshes : Corners K) (v : Int × Aff K) : List (V3 K × V3 K × V3 K) :=
  match primAt nodes v.1 with
  | some p => match p.mesh with
    | some m => (meshes m).map (fun t => (v.2.app t.1, v.2.app t.2.1, v.2.app t.2.2))
    | none => []
  | none => []

theorem boundStep_eq (nodes : List (Node (Aff K))) (meshes : Corners K) (b : Box K) (v : Int × Aff K) :
    boundStep nodes meshes b v = match primAt nodes v.1 with
      | some p => match p.mesh with
        | some m => (meshes m).foldl (triStep v.2) b
        | none => b
      | none => b := by
  unfold boundStep primAt
  split
  · next i p h => rw [h]; cases hm : p.mesh <;> simp only [hm]
  · next h => split <;> simp_all

theorem bound_in (nodes : List (Node (Aff K))) (meshes : Corners K) (out : List (Int × Aff K)) : ∀ b : Box K, (∀ q, In q b → In q (out.foldl (boundStep nodes meshes) b)) ∧
    ∀ v ∈ out, ∀ p m, primAt nodes v.1 = some p → p.mesh = some m → ∀ t ∈ meshes m,
      In (v.2.app t.1) (out.foldl (boundStep nodes meshes) b) ∧ In (v.2.app t.2.1) (out.foldl (boundStep nodes meshes) b) ∧ In (v.2.app t.2.2) (out.foldl (boundStep nodes meshes) b) := by
  induction out with
  | nil => intro b; exact ⟨fun _ h => h, by simp⟩
  | cons v out ih =>
    intro b
    obtain ⟨h1, h2⟩ := ih (boundStep nodes meshes b v)
    refine ⟨fun q h => h1 q ?_, ?_⟩
    · rw [boundStep_eq]
      split
      · split
        · exact (tris_in v.2 _ b).1 q h
        · exact h
      · exact h
    · intro v' hv' p m hp hm t ht
      rcases List.mem_cons.mp hv' with rfl | hv'
      · have hb : boundStep nodes meshes b v' = (meshes m).foldl (triStep v'.2) b := by rw [boundStep_eq, hp]; simp only [hm]
        obtain ⟨k1, k2, k3⟩ := (tris_in v'.2 (meshes m) b).2 t ht
        rw [← hb] at k1 k2 k3
        exact ⟨h1 _ k1, h1 _ k2, h1 _ k3⟩
      · exact h2 v' hv' p m hp hm t ht

/-- Boxes ordered by their faces. -/
def BoxLe (b c : Box K) : Prop := (c.min.x ≤ b.min.x ∧ c.min.y ≤ b.min.y ∧ c.min.z ≤ b.min.z) ∧ (b.max.x ≤ c.max.x ∧ b.max.y ≤ c.max.y ∧ b.max.z ≤ c.max.z)

theorem mergeP_le {b c : Box K} {p : V3 K} (h : BoxLe b c) (hp : In p c) : BoxLe (mergeP b p) c := by
  obtain ⟨⟨h1, h2, h3⟩, h4, h5, h6⟩ := h
  obtain ⟨⟨p1, p2⟩, ⟨p3, p4⟩, p5, p6⟩ := hp
  simp only [BoxLe, mergeP, vmin, vmax, gmin_eq, gmax_eq, le_min_iff, max_le_iff]
  exact ⟨⟨⟨h1, p1⟩, ⟨h2, p3⟩, h3, p5⟩, ⟨h4, p2⟩, ⟨h5, p4⟩, h6, p6⟩

theorem tris_le (M : Aff K) (c : Box K) (l : List (V3 K × V3 K × V3 K)) (hl : ∀ t ∈ l, In (M.app t.1) c ∧ In (M.app t.2.1) c ∧ In (M.app t.2.2) c) : ∀ b : Box K, BoxLe b c → BoxLe (l.foldl (triStep M) b) c := by
  induction l with
  | nil => intro b h; exact h
  | cons t l ih =>
    intro b h
    obtain ⟨k1, k2, k3⟩ := hl t (by simp)
    exact ih (fun t' ht' => hl t' (by simp [ht'])) _ (mergeP_le (mergeP_le (mergeP_le h k1) k2) k3)

theorem bound_le (nodes : List (Node (Aff K))) (meshes : Corners K) (c : Box K) (out : List (Int × Aff K))
    (hl : ∀ v ∈ out, ∀ p m, primAt nodes v.1 = some p → p.mesh = some m → ∀ t ∈ meshes m, In (v.2.app t.1) c ∧ In (v.2.app t.2.1) c ∧ In (v.2.app t.2.2) c) :
    ∀ b : Box K, BoxLe b c → BoxLe (out.foldl (boundStep nodes meshes) b) c := by
  induction out with
  | nil => intro b h; exact h
  | cons v out ih =>
    intro b h
    apply ih (fun v' hv' => hl v' (by simp [hv']))
    rw [boundStep_eq]
    split
    · next p hp =>
      split
      · next m hm => exact tris_le v.2 c _ (hl v (by simp) p m hp hm) b h
      · exact h
    · exact h

theorem follows_fun {Mat : Type} {ns : List (Node Mat)} {i : Int} {p : List ℕ} {j j' : Int} {ts ts' : List Mat} (h : Follows ns i p j ts) (h' : Follows ns i p j' ts') : j = j' ∧ ts = ts' := by
  induction h generalizing j' ts' with
  | nil i n hn => cases h'; exact ⟨rfl, rfl⟩
  | cons i idx ch b tr k c p j ts hi hk hf ih =>
    cases h' with
    | cons _ idx1 ch1 b1 tr1 _ c1 _ _ ts1 hi1 hk1 hf1 =>
      rw [hi] at hi1; cases hi1
      rw [hk] at hk1; cases hk1
      obtain ⟨rfl, rfl⟩ := ih hf1
      exact ⟨rfl, rfl⟩

omit [LinearOrder K] in
theorem enum_visits {nodes : List (Node (Aff K))} {out : List (Int × Aff K)} (he : Enumerates nodes 0 1 out) (j : Int) (T : Aff K) : (j, T) ∈ out ↔ ∃ path ts, Follows nodes 0 path j ts ∧ T = ts.prod := by
  obtain ⟨ps, hnd, hmem, hf⟩ := he
  constructor
  · intro h
    obtain ⟨i, hi, hv⟩ := List.getElem_of_mem h
    have hl := hf.length_eq
    have := (List.forall₂_iff_get.mp hf).2 i (by omega) hi
    obtain ⟨ts, h1, h2⟩ := this
    simp only [List.get_eq_getElem, hv, one_mul] at h1 h2
    exact ⟨_, ts, h1, h2⟩
  · rintro ⟨path, ts, h1, rfl⟩
    have hp := (hmem path).mpr ⟨j, ts, h1⟩
    obtain ⟨i, hi, hv⟩ := List.getElem_of_mem hp
    have hl := hf.length_eq
    obtain ⟨ts', k1, k2⟩ := (List.forall₂_iff_get.mp hf).2 i hi (by omega)
    simp only [List.get_eq_getElem, hv, one_mul] at k1 k2
    obtain ⟨e1, e2⟩ := follows_fun k1 h1
    have : out[i]'(by omega) = (j, ts.prod) := Prod.ext e1 (by rw [k2, e2])
    rw [← this]; exact List.getElem_mem _
end Box

/-- C107. What build finds is the extent of the scene: when the traversal returns, the box contains every triangle of the scene, whichever path leads to it. -/
theorem C107_contains {K : Type} [Field K] [LinearOrder K] [IsStrictOrderedRing K] (nodes : List (Node (Aff K))) (meshes : Corners K) (fuel : ℕ) (out : List (Int × Aff K)) (h : traverse nodes fuel = .done out)
    (x : V3 K) (hx : OnScene nodes meshes x) : In x (sceneBound nodes meshes out) := by
  obtain ⟨a, b, c, ⟨path, j, ts, p, m, t, hf, hp, hm, ht, rfl, rfl, rfl⟩, α, β, γ, h0, h1, h2, hs, rfl⟩ := hx
  have hv := (enum_visits (C40_every_path_once nodes fuel out h) j ts.prod).mpr ⟨path, ts, hf, rfl⟩
  obtain ⟨⟨⟨a1, a2⟩, ⟨a3, a4⟩, a5, a6⟩, ⟨⟨b1, b2⟩, ⟨b3, b4⟩, b5, b6⟩, ⟨c1, c2⟩, ⟨c3, c4⟩, c5, c6⟩ := (bound_in nodes meshes out dflt).2 _ hv p m hp hm t ht
  have lo : ∀ l x y z : K, l ≤ x → l ≤ y → l ≤ z → l ≤ α * x + β * y + γ * z := by
    intro l x y z hx hy hz
    have : l = α * l + β * l + γ * l := by rw [← add_mul, ← add_mul, hs, one_mul]
    rw [this]
    have := mul_le_mul_of_nonneg_left hx h0
    have := mul_le_mul_of_nonneg_left hy h1
    have := mul_le_mul_of_nonneg_left hz h2
    linarith
  have hi : ∀ l x y z : K, x ≤ l → y ≤ l → z ≤ l → α * x + β * y + γ * z ≤ l := by
    intro l x y z hx hy hz
    have : l = α * l + β * l + γ * l := by rw [← add_mul, ← add_mul, hs, one_mul]
    rw [this]
    have := mul_le_mul_of_nonneg_left hx h0
    have := mul_le_mul_of_nonneg_left hy h1
    have := mul_le_mul_of_nonneg_left hz h2
    linarith
  refine ⟨⟨?_, ?_⟩, ⟨?_, ?_⟩, ?_, ?_⟩ <;> simp only [V3.add_x, V3.add_y, V3.add_z, V3.smul_x, V3.smul_y, V3.smul_z]
  · exact lo _ _ _ _ a1 b1 c1
  · exact hi _ _ _ _ a2 b2 c2
  · exact lo _ _ _ _ a3 b3 c3
  · exact hi _ _ _ _ a4 b4 c4
  · exact lo _ _ _ _ a5 b5 c5
  · exact hi _ _ _ _ a6 b6 c6

/-- C107. And no more than that: if some corner has coordinates of at most 10^10 (the largest number the framework calls finite), the box lies in every box that contains the corners of the scene. -/
theorem C107_smallest {K : Type} [Field K] [LinearOrder K] [IsStrictOrderedRing K] (nodes : List (Node (Aff K))) (meshes : Corners K) (fuel : ℕ) (out : List (Int × Aff K)) (h : traverse nodes fuel = .done out)
    (B : Box K) (hB : ∀ a b c, SceneTri nodes meshes a b c → In a B ∧ In b B ∧ In c B)
    (hc : ∃ a b c, SceneTri nodes meshes a b c ∧ |a.x| ≤ 10 ^ 10 ∧ |a.y| ≤ 10 ^ 10 ∧ |a.z| ≤ 10 ^ 10) (x : V3 K) (hx : In x (sceneBound nodes meshes out)) : In x B := by
  obtain ⟨a, b, c, ht, k1, k2, k3⟩ := hc
  obtain ⟨⟨a1, a2⟩, ⟨a3, a4⟩, a5, a6⟩ := (hB a b c ht).1
  rw [abs_le] at k1 k2 k3
  have h0 : BoxLe (dflt : Box K) B := by
    simp only [BoxLe, dflt, Bound.Inf, V3.all]
    exact ⟨⟨a1.trans k1.2, a3.trans k2.2, a5.trans k3.2⟩, k1.1.trans a2, k2.1.trans a4, k3.1.trans a6⟩
  have := bound_le nodes meshes B out (by
    rintro ⟨j, T⟩ hv p m hp hm t ht
    obtain ⟨path, ts, hf, rfl⟩ := (enum_visits (C40_every_path_once nodes fuel out h) j T).mp hv
    exact hB _ _ _ ⟨path, j, ts, p, m, t, hf, hp, hm, ht, rfl, rfl, rfl⟩) dflt h0
  obtain ⟨⟨m1, m2, m3⟩, m4, m5, m6⟩ := this
  obtain ⟨⟨x1, x2⟩, ⟨x3, x4⟩, x5, x6⟩ := hx
  exact ⟨⟨m1.trans x1, x2.trans m4⟩, ⟨m2.trans x3, x4.trans m5⟩, m3.trans x5, x6.trans m6⟩

/-- C107. The built-in acceleration structure, built by the same call, knows exactly the triangles the box was made of. -/
theorem C107_same_triangles (nodes : List (Node (Aff ℚ))) (meshes : Corners ℚ) (fuel : ℕ) (out : List (Int × Aff ℚ)) (h : traverse nodes fuel = .done out) (a b c : V3 ℚ) :
    SceneTri nodes meshes a b c ↔ ∃ q ∈ (Accel.flatten nodes meshes out).trs, q.1 = Bvh.Tri.mk' a b c ∧ (a = q.1.p1 ∧ b = q.1.p1 + q.1.e1 ∧ c = q.1.p1 + q.1.e2) := by
  have he := C40_every_path_once nodes fuel out h
  obtain ⟨f1, f2⟩ := Accel.flatten_spec nodes meshes out
  constructor
  · rintro ⟨path, j, ts, p, m, t, hf, hp, hm, ht, rfl, rfl, rfl⟩
    have hv := (enum_visits he j ts.prod).mpr ⟨path, ts, hf, rfl⟩
    obtain ⟨face, hface⟩ := List.mem_iff_getElem?.mp ht
    have : ∃ idx, at? nodes j = some (.prim idx p) := by
      unfold primAt at hp
      split at hp
      · next idx p' hn => cases hp; exact ⟨idx, hn⟩
      · cases hp
    obtain ⟨idx, hn⟩ := this
    obtain ⟨fn, hfn⟩ := f2 _ hv idx p m face t hn hm hface
    refine ⟨_, hfn, rfl, rfl, ?_, ?_⟩ <;> simp [Accel.triOf, Bvh.Tri.mk']
  · rintro ⟨⟨T, fn, face⟩, hq, -, h1, h2, h3⟩
    obtain ⟨⟨j, M⟩, hv, idx, p, m, t, hn, hm, ht, rfl, -⟩ := f1 T fn face hq
    obtain ⟨path, ts, hf, rfl⟩ := (enum_visits he j M).mp hv
    refine ⟨path, j, ts, p, m, t, hf, by simp [primAt, hn], hm, List.mem_of_getElem? ht, ?_, ?_, ?_⟩
    · exact h1
    · rw [h2]; simp [Accel.triOf, Bvh.Tri.mk']
    · rw [h3]; simp [Accel.triOf, Bvh.Tri.mk']

/-! ### Rays from the sphere -/

/-- The points of an emission ray in direction d are those at t along d, t being the distance from the plane touching the sphere at its back; they are within r of the axis. -/
theorem disk_line (sgn : V3 ℝ → Bool) (c : V3 ℝ) (r : ℝ) (d : V3 ℝ) (hd : V3.dot d d = 1) (us : RayU) (hu : us.Valid) (t : ℝ) (x : V3 ℝ) (h : diskPoint sgn c r d us + t • d = x) :
    t = r + V3.dot (x - c) d ∧ V3.dot (x - c) (x - c) - V3.dot (x - c) d ^ 2 ≤ r ^ 2 := by
  have hb := MathF.C32_basis d (sgn d) hd
  set u := (MathF.orthonormalBasis d (sgn d)).1 with hu'
  set v := (MathF.orthonormalBasis d (sgn d)).2 with hv'
  set q := MathF.sampleUniformDisk us.up0 us.up1 with hq
  have e : x - c = (q.1 * r) • u + (q.2 * r) • v + (t - r) • d := by
    rw [← h]
    simp only [diskPoint, ← hq, ← hu', ← hv']
    rw [sub_smul, smul_neg]; abel
  have hq1 := (MathF.C34_disk us.up0 us.up1 hu.1.1 hu.1.2.le).2
  rw [← hq] at hq1
  obtain ⟨f1, f2, -, -⟩ := MathF.C32_frame u v d ⟨q.1 * r, q.2 * r, t - r⟩ ⟨q.1 * r, q.2 * r, t - r⟩ hb
  simp only at f1 f2
  rw [← e] at f1 f2
  refine ⟨by rw [f2]; ring, ?_⟩
  rw [f1, f2]
  simp only [V3.dot]
  nlinarith [sq_nonneg r]

/-- Squared half diagonal of the box. -/
noncomputable def half2 (b : Box ℝ) : ℝ := ((b.max.x - b.min.x) / 2) ^ 2 + ((b.max.y - b.min.y) / 2) ^ 2 + ((b.max.z - b.min.z) / 2) ^ 2

theorem sphere_c (b : Box ℝ) : (sphereBound b.min b.max).1 = ⟨(b.max.x + b.min.x) / 2, (b.max.y + b.min.y) / 2, (b.max.z + b.min.z) / 2⟩ := by
  ext <;> simp [sphereBound] <;> ring

theorem sphere_r (b : Box ℝ) : (sphereBound b.min b.max).2 = Real.sqrt (half2 b) * (101 / 100) := by
  have : V3.dot (b.max - (sphereBound b.min b.max).1) (b.max - (sphereBound b.min b.max).1) = half2 b := by
    rw [sphere_c]; simp only [V3.dot, V3.sub_x, V3.sub_y, V3.sub_z, half2]; ring
  rw [← this]; rfl

theorem in_half2 {b : Box ℝ} {x : V3 ℝ} (h : In x b) : V3.dot (x - (sphereBound b.min b.max).1) (x - (sphereBound b.min b.max).1) ≤ half2 b := by
  obtain ⟨⟨h1, h2⟩, ⟨h3, h4⟩, h5, h6⟩ := h
  rw [sphere_c]; simp only [V3.dot, V3.sub_x, V3.sub_y, V3.sub_z, half2]
  nlinarith [mul_nonneg (sub_nonneg.mpr h1) (sub_nonneg.mpr h2), mul_nonneg (sub_nonneg.mpr h3) (sub_nonneg.mpr h4), mul_nonneg (sub_nonneg.mpr h5) (sub_nonneg.mpr h6)]

theorem cauchy (a d : V3 ℝ) (hd : V3.dot d d = 1) : V3.dot a d ^ 2 ≤ V3.dot a a := by
  have h : V3.dot a a * V3.dot d d - V3.dot a d ^ 2 = V3.dot (V3.cross a d) (V3.cross a d) := by simp only [V3.dot, V3.cross]; ring
  have h2 : 0 ≤ V3.dot (V3.cross a d) (V3.cross a d) := by simp only [V3.dot, ← sq]; positivity
  rw [hd] at h; linarith

/-- A box with two different points: the sphere has a positive radius, and for every direction some emission ray passes through every point of the box. -/
theorem box_reached (b : Box ℝ) (x y : V3 ℝ) (hx : In x b) (hy : In y b) (hne : x ≠ y) : 0 < (sphereBound b.min b.max).2 ∧
    ∀ z, In z b → ∀ sgn d, V3.dot d d = 1 → ∃ us : RayU, us.Valid ∧ ∃ t : ℝ, (sphereBound b.min b.max).2 / 101 ≤ t ∧ t ≤ 2 * (sphereBound b.min b.max).2 ∧
      diskPoint sgn (sphereBound b.min b.max).1 (sphereBound b.min b.max).2 d us + t • d = z := by
  have hmm : b.min ≠ b.max := by
    intro e
    apply hne
    obtain ⟨⟨x1, x2⟩, ⟨x3, x4⟩, x5, x6⟩ := hx
    obtain ⟨⟨y1, y2⟩, ⟨y3, y4⟩, y5, y6⟩ := hy
    rw [e] at x1 x3 x5 y1 y3 y5
    ext
    · exact (le_antisymm x2 x1).trans (le_antisymm y2 y1).symm
    · exact (le_antisymm x4 x3).trans (le_antisymm y4 y3).symm
    · exact (le_antisymm x6 x5).trans (le_antisymm y6 y5).symm
  have hpos : 0 < half2 b := by
    rcases lt_or_eq_of_le (show 0 ≤ half2 b by unfold half2; positivity) with h | h
    · exact h
    · exfalso
      apply hmm
      unfold half2 at h
      have e1 : ((b.max.x - b.min.x) / 2) ^ 2 = 0 := by nlinarith [sq_nonneg ((b.max.x - b.min.x) / 2), sq_nonneg ((b.max.y - b.min.y) / 2), sq_nonneg ((b.max.z - b.min.z) / 2)]
      have e2 : ((b.max.y - b.min.y) / 2) ^ 2 = 0 := by nlinarith [sq_nonneg ((b.max.x - b.min.x) / 2), sq_nonneg ((b.max.y - b.min.y) / 2), sq_nonneg ((b.max.z - b.min.z) / 2)]
      have e3 : ((b.max.z - b.min.z) / 2) ^ 2 = 0 := by nlinarith [sq_nonneg ((b.max.x - b.min.x) / 2), sq_nonneg ((b.max.y - b.min.y) / 2), sq_nonneg ((b.max.z - b.min.z) / 2)]
      rw [sq_eq_zero_iff] at e1 e2 e3
      ext <;> linarith
  have hs := Real.sqrt_pos.mpr hpos
  refine ⟨by rw [sphere_r]; positivity, ?_⟩
  intro z hz sgn d hd
  obtain ⟨us, hu, t, -, ht⟩ := C46_rays_cover sgn b.min b.max d z hd hz hmm
  refine ⟨us, hu, t, ?_, ?_, ht⟩
  all_goals
    have e := (disk_line sgn _ _ d hd us hu t z ht).1
    have h1 := (cauchy (z - (sphereBound b.min b.max).1) d hd).trans (in_half2 hz)
    have h2 := Real.abs_le_sqrt h1
    rw [abs_le] at h2
    rw [sphere_r] at e ⊢
    linarith [h2.1, h2.2]

theorem directional_ray (sgn : V3 ℝ → Bool) (junk Le d c : V3 ℝ) (r : ℝ) (hr : 0 < r) (us : RayU) (M : Aff ℝ) :
    ∃ C, (directional sgn junk Le d c r).sampleRay us M = .ok (makeInfinite d (diskPoint sgn c r d us) junk) d C := by
  obtain ⟨p, hp, hp0, -⟩ := pdfDisk_pos r hr
  obtain ⟨C, hC, -⟩ := ray_ok (makeInfinite d (diskPoint sgn c r d us) junk) d Le p hp0
  exact ⟨C, by simp only [directional, hp]; exact hC⟩

theorem envconst_ray (sgn : V3 ℝ → Bool) (junk Le d c : V3 ℝ) (r : ℝ) (hr : 0 < r) (hd : V3.dot d d = 1) (hdz : d.z ≠ -1) (us : RayU) (hu : us.Valid) (M : Aff ℝ) :
    ∃ us' : RayU, us'.Valid ∧ ∃ C, (envconst sgn junk Le c r).sampleRay us' M = .ok (makeInfinite d (diskPoint sgn c r d us) junk) d C := by
  obtain ⟨a, b, ha, hb, hab⟩ := MathF.C34_sphere_onto d hd hdz
  obtain ⟨p, hp, hp0, -⟩ := pdfDisk_pos r hr
  obtain ⟨C, hC, -⟩ := ray_ok (makeInfinite d (diskPoint sgn c r d us) junk) d Le (pdfSphere * p) (mul_pos pdfSphere_pos hp0)
  refine ⟨⟨us.up0, us.up1, us.upc, a, b⟩, ⟨hu.1, hu.2.1, hu.2.2.1, ha, hb⟩, C, ?_⟩
  simp only [envconst, hp, hab, Option.map_some]
  exact hC

/-! ### The world -/

theorem setBounds_spec (infinite : ℕ → Bool) (nodes : List (Node (Aff ℝ))) (s : V3 ℝ × ℝ) (ls : List (Aff ℝ × Int)) : ∀ (f g : Spheres), setBounds infinite nodes s ls f = some g →
    (∀ k, infinite k = true → (∃ l ∈ ls, ∃ p, primAt nodes l.2 = some p ∧ p.light = some k) → g k = some s) ∧
    (∀ k, (∀ l ∈ ls, ∀ p, primAt nodes l.2 = some p → p.light ≠ some k) → g k = f k) ∧ ∀ k, infinite k = false → g k = f k := by
  induction ls with
  | nil => intro f g h; cases h; exact ⟨fun k _ ⟨l, hl, _⟩ => by simp at hl, fun k _ => rfl, fun k _ => rfl⟩
  | cons l ls ih =>
    intro f g h
    unfold setBounds at h
    split at h
    · next i p hn =>
      have hp : primAt nodes l.2 = some p := by simp [primAt, hn]
      split at h
      · cases h
      · next k0 hk0 =>
        obtain ⟨h1, h2, h3⟩ := ih _ g h
        refine ⟨?_, ?_, ?_⟩
        · rintro k hk ⟨l', hl', p', hp', hpk⟩
          by_cases hin : ∃ l ∈ ls, ∃ p, primAt nodes l.2 = some p ∧ p.light = some k
          · exact h1 k hk hin
          · rcases List.mem_cons.mp hl' with rfl | hl'
            · rw [hp] at hp'; cases hp'
              rw [hk0] at hpk; cases hpk
              rw [h2 k0 (fun l hl p hp e => hin ⟨l, hl, p, hp, e⟩), if_pos hk, if_pos rfl]
            · exact absurd ⟨l', hl', p', hp', hpk⟩ hin
        · intro k hk
          rw [h2 k (fun l' hl' => hk l' (by simp [hl']))]
          have : k ≠ k0 := by rintro rfl; exact hk l (by simp) p hp hk0
          split
          · simp only [if_neg this]
          · rfl
        · intro k hk
          rw [h3 k hk]
          split
          · next h0 =>
            have : k ≠ k0 := by rintro rfl; rw [hk] at h0; cases h0
            simp only [if_neg this]
          · rfl
    · cases h

theorem mem_lights_iff {isEnv} {st : St (Aff ℝ)} (hw : WF isEnv st) {fuel out} (h : traverse st.nodes fuel = .done out) (k : ℕ) :
    (∃ l ∈ (buildLights st out).lights, ∃ p, primAt st.nodes l.2 = some p ∧ p.light = some k) ↔ HasLight st.nodes k := by
  have he := C40_every_path_once st.nodes fuel out h
  rw [(buildLights_spec st out).1]
  constructor
  · rintro ⟨⟨T, j⟩, hl, p, hp, hpk⟩
    obtain ⟨path, pr, ts, hf, hpr, -, -⟩ := (mem_lightsOf hw he T j).mp hl
    exact ⟨path, j, ts, p, hf, hp, hpk⟩
  · rintro ⟨path, j, ts, p, hf, hp, hpk⟩
    exact ⟨(ts.prod, j), (mem_lightsOf hw he _ _).mpr ⟨path, p, ts, hf, hp, by rw [hpk]; rfl, rfl⟩, p, hp, hpk⟩

theorem build_spec {isEnv infinite : ℕ → Bool} {meshes : Corners ℝ} {w w' : World} {s fuel : ℕ} (hw : WF isEnv (w.scenes s)) (h : build infinite meshes w s fuel = some w') :
    ∃ out, traverse (w.scenes s).nodes fuel = .done out ∧ (w'.scenes = fun j => if j = s then buildLights (w.scenes s) out else w.scenes j) ∧
      (∀ k, infinite k = true → HasLight (w.scenes s).nodes k → w'.sphere k = some (sphereBound (sceneBound (w.scenes s).nodes meshes out).min (sceneBound (w.scenes s).nodes meshes out).max)) ∧
      (∀ k, ¬ HasLight (w.scenes s).nodes k → w'.sphere k = w.sphere k) ∧ ∀ k, infinite k = false → w'.sphere k = w.sphere k := by
  unfold build at h
  split at h
  · next out ho =>
    simp only [(buildLights_spec (w.scenes s) out).2.1] at h
    split at h
    · next f hf =>
      cases h
      obtain ⟨h1, h2, h3⟩ := setBounds_spec _ _ _ _ _ _ hf
      refine ⟨out, ho, rfl, fun k hk hl => h1 k hk ((mem_lights_iff hw ho k).mpr hl), fun k hk => h2 k ?_, h3⟩
      intro l hl p hp e
      exact hk ((mem_lights_iff hw ho k).mp ⟨l, hl, p, hp, e⟩)
    · cases h
  · cases h

theorem world_wf (isEnv infinite : ℕ → Bool) (meshes : Corners ℝ) (calls : List Call) (hok : ∀ c ∈ calls, CallOk c) : ∀ w w', (∀ j, WF isEnv (w.scenes j)) → run isEnv infinite meshes w calls = some w' → ∀ j, WF isEnv (w'.scenes j) := by
  induction calls with
  | nil => intro w w' h hr; cases hr; exact h
  | cons c cs ih =>
    intro w w' h hr
    simp only [run, Option.bind_eq_some_iff] at hr
    obtain ⟨w1, h1, h2⟩ := hr
    refine ih (fun c hc => hok c (by simp [hc])) w1 w' ?_ h2
    intro j
    cases c with
    | edit k op =>
      cases h1
      simp only
      split
      · next e => exact (wf_step isEnv _ op (h k) (hok (.edit k op) (by simp))).1
      · exact h j
    | build k fuel =>
      obtain ⟨out, -, hs, -⟩ := build_spec (h k) h1
      rw [hs]
      simp only
      split
      · exact (wf_step isEnv (w.scenes k) (.build out) (h k) trivial).1
      · exact h j

theorem later_wf {isEnv infinite : ℕ → Bool} {meshes : Corners ℝ} {k : ℕ} {w w' : World} {cs : List Call} (h : Later isEnv infinite meshes k w cs w') (hok : ∀ c ∈ cs, CallOk c) (hw : ∀ j, WF isEnv (w.scenes j)) :
    w'.sphere k = w.sphere k := by
  induction h with
  | nil w => rfl
  | cons w c w1 cs w2 h1 hl ht ih =>
    rw [ih (fun c hc => hok c (by simp [hc])) (world_wf isEnv infinite meshes [c] (fun c' hc' => hok c' (by simp_all)) w w1 hw (by simp [run, h1]))]
    cases c with
    | edit s op => cases h1; rfl
    | build s fuel =>
      obtain ⟨out, -, -, -, h3, -⟩ := build_spec (hw s) h1
      exact h3 k hl

/-- C107 (partial). A light at infinity reaches the whole scene: whatever was called before, after build every light at infinity that the scene has keeps a sphere of positive radius, until a scene that has the same light
    is built, such that a directional light shining in any direction generates, for some random numbers, a ray that passes through any given point on the triangles of the scene as it was built — and reaches it at a
    distance between 1/101 of the radius and the diameter. So does a constant environment light, for every direction but one.
    Missing: building another scene with the same light (C107_negation_shared); that a ray query finds the point (C107_negation_tiny); the directions that environment maps choose. -/
theorem C107_covers_partial (isEnv infinite : ℕ → Bool) (meshes : Corners ℝ) (calls : List Call) (hok : ∀ c ∈ calls, CallOk c) (w : World) (hw : run isEnv infinite meshes World.init calls = some w)
    (s fuel : ℕ) (w1 : World) (hb : step isEnv infinite meshes w (.build s fuel) = some w1) (k : ℕ) (hk : infinite k = true) (hl : HasLight (w.scenes s).nodes k)
    (hne : ∃ x y, OnScene (w.scenes s).nodes meshes x ∧ OnScene (w.scenes s).nodes meshes y ∧ x ≠ y)
    (later : List Call) (hok' : ∀ c ∈ later, CallOk c) (w2 : World) (h2 : Later isEnv infinite meshes k w1 later w2) :
    ∃ c r, w2.sphere k = some (c, r) ∧ 0 < r ∧ ∀ x, OnScene (w.scenes s).nodes meshes x → ∀ sgn d, V3.dot d d = 1 → ∃ us : RayU, us.Valid ∧ ∃ t : ℝ, r / 101 ≤ t ∧ t ≤ 2 * r ∧
      diskPoint sgn c r d us + t • d = x ∧ ∀ junk Le M, (∃ g C, (directional sgn junk Le d c r).sampleRay us M = .ok g d C ∧ g.p + t • d = x) ∧
        (d.z ≠ -1 → ∃ us' : RayU, us'.Valid ∧ ∃ g C, (envconst sgn junk Le c r).sampleRay us' M = .ok g d C ∧ g.p + t • d = x) := by
  have hwf := world_wf isEnv infinite meshes calls hok World.init w (fun j => wf_init isEnv) hw
  have hwf1 := world_wf isEnv infinite meshes [.build s fuel] (by simp [CallOk]) w w1 hwf (by simp [run, hb])
  obtain ⟨out, ho, -, hs, -, -⟩ := build_spec (hwf s) hb
  have he := hs k hk hl
  rw [← later_wf h2 hok' hwf1] at he
  obtain ⟨x, y, hx, hy, hxy⟩ := hne
  have cx := fun z hz => C107_contains (w.scenes s).nodes meshes fuel out ho z hz
  obtain ⟨hr, hz⟩ := box_reached (sceneBound (w.scenes s).nodes meshes out) x y (cx x hx) (cx y hy) hxy
  refine ⟨_, _, he, hr, ?_⟩
  intro z hz' sgn d hd
  obtain ⟨us, hu, t, t1, t2, ht⟩ := hz z (cx z hz') sgn d hd
  refine ⟨us, hu, t, t1, t2, ht, ?_⟩
  intro junk Le M
  obtain ⟨C, hC⟩ := directional_ray sgn junk Le d _ _ hr us M
  refine ⟨⟨_, C, hC, ht⟩, fun hdz => ?_⟩
  obtain ⟨us', hu', C', hC'⟩ := envconst_ray sgn junk Le d _ _ hr hd hdz us hu M
  exact ⟨us', hu', _, C', hC', ht⟩

/-! ### Examples -/

/-- A scene with the mesh of number m under the root and light 0 beside it. -/
def exCalls (s m : ℕ) : List Call :=
  [.edit s (.createPrimitive ⟨some m, some 0, none, none, none⟩), .edit s (.createPrimitive ⟨none, none, some 0, none, none⟩), .edit s (.addChild 0 1), .edit s (.addChild 0 2)]

/-- The nodes of that scene. -/
def exNodes (m : ℕ) : List (Node (Aff ℝ)) := [.group 0 [1, 2] false none, .prim 1 ⟨some m, some 0, none, none, none⟩, .prim 2 ⟨none, none, some 0, none, none⟩]

theorem ex_traverse (m : ℕ) : traverse (exNodes m) 5 = .done [(0, 1), (1, 1), (2, 1)] := rfl

theorem ex_edits (isEnv infinite : ℕ → Bool) (h0 : isEnv 0 = false) (meshes : Corners ℝ) (w : World) (s m : ℕ) (hs : w.scenes s = reset) : ∃ w', run isEnv infinite meshes w (exCalls s m) = some w' ∧
    (w'.scenes s).nodes = exNodes m ∧ (∀ j, j ≠ s → w'.scenes j = w.scenes j) ∧ w'.sphere = w.sphere := by
  refine ⟨_, rfl, ?_, ?_, rfl⟩
  · simp [hs, Scene.step, createPrimitive, reset, h0, addChild, exNodes]
  · intro j hj; simp [hj]

theorem ex_follows (m : ℕ) : Follows (exNodes m) 0 [0] 1 [] ∧ Follows (exNodes m) 0 [1] 2 [] :=
  ⟨.cons 0 0 [1, 2] false none 0 1 [] 1 [] rfl rfl (.nil 1 _ rfl), .cons 0 0 [1, 2] false none 1 2 [] 2 [] rfl rfl (.nil 2 _ rfl)⟩

theorem ex_hasLight (m : ℕ) : HasLight (exNodes m) 0 := ⟨_, _, _, _, (ex_follows m).2, rfl, rfl⟩

theorem app_one (x : V3 ℝ) : (1 : Aff ℝ).app x = x := by rw [Aff.one_def]; ext <;> simp [Aff.app, Aff.lin]

theorem ex_tri (meshes : Corners ℝ) (m : ℕ) (t) (ht : t ∈ meshes m) : SceneTri (exNodes m) meshes t.1 t.2.1 t.2.2 :=
  ⟨_, _, _, _, m, t, (ex_follows m).1, rfl, rfl, ht, by simp [app_one], by simp [app_one], by simp [app_one]⟩

theorem corner_on {nodes : List (Node (Aff ℝ))} {meshes : Corners ℝ} {a b c : V3 ℝ} (h : SceneTri nodes meshes a b c) : OnScene nodes meshes a ∧ OnScene nodes meshes b ∧ OnScene nodes meshes c :=
  ⟨⟨a, b, c, h, 1, 0, 0, by simp, le_refl _, le_refl _, by simp, by simp⟩, ⟨a, b, c, h, 0, 1, 0, le_refl _, by simp, le_refl _, by simp, by simp⟩, ⟨a, b, c, h, 0, 0, 1, le_refl _, le_refl _, by simp, by simp, by simp⟩⟩

/-- Building a scene with these nodes returns, and tells light 0 the sphere around the box. -/
theorem ex_build (isEnv infinite : ℕ → Bool) (h1 : infinite 0 = true) (meshes : Corners ℝ) (w : World) (s m : ℕ) (hn : (w.scenes s).nodes = exNodes m) : ∃ w', step isEnv infinite meshes w (.build s 5) = some w' ∧
    (∀ j, (w'.scenes j).nodes = (w.scenes j).nodes) ∧ (∀ j, j ≠ s → w'.scenes j = w.scenes j) ∧
    w'.sphere 0 = some (sphereBound (sceneBound (exNodes m) meshes [(0, 1), (1, 1), (2, 1)]).min (sceneBound (exNodes m) meshes [(0, 1), (1, 1), (2, 1)]).max) := by
  have hl := (buildLights_spec (w.scenes s) [(0, 1), (1, 1), (2, 1)]).1
  have hnn := (buildLights_spec (w.scenes s) [(0, 1), (1, 1), (2, 1)]).2.1
  have hlo : lightsOf (exNodes m) [(0, 1), (1, 1), (2, 1)] = [(1, 2)] := rfl
  rw [hn] at hl hnn
  rw [hlo] at hl
  refine ⟨⟨fun j => if j = s then buildLights (w.scenes s) [(0, 1), (1, 1), (2, 1)] else w.scenes j, fun j => if j = 0 then
    some (sphereBound (sceneBound (exNodes m) meshes [(0, 1), (1, 1), (2, 1)]).min (sceneBound (exNodes m) meshes [(0, 1), (1, 1), (2, 1)]).max) else w.sphere j⟩, ?_, ?_, ?_, ?_⟩
  · simp only [step, build, hn, ex_traverse, hl, hnn]
    simp [setBounds, exNodes, at?, h1]
  · intro j
    by_cases hj : j = s
    · subst hj; simp only [if_true]; rw [hnn, hn]
    · simp only [if_neg hj]
  · intro j hj; simp only [if_neg hj]
  · rfl

/-- The box of the example scene. -/
theorem ex_box (meshes : Corners ℝ) (m : ℕ) (B : Box ℝ) (hB : BoxLe dflt B) (h : ∀ t ∈ meshes m, In t.1 B ∧ In t.2.1 B ∧ In t.2.2 B) :
    BoxLe (sceneBound (exNodes m) meshes [(0, 1), (1, 1), (2, 1)]) B := by
  apply bound_le _ _ _ _ _ _ hB
  rintro ⟨j, T⟩ hv p m' hp hm t ht
  simp only [List.mem_cons, Prod.mk.injEq, List.not_mem_nil, or_false] at hv
  rcases hv with ⟨rfl, rfl⟩ | ⟨rfl, rfl⟩ | ⟨rfl, rfl⟩
  · cases hp
  · cases hp; cases hm; simp only [app_one]; exact h t ht
  · cases hp; cases hm

/-- Two meshes: a triangle far from the origin, and one at the origin. -/
noncomputable def exMeshes : Corners ℝ
  | 0 => [(⟨100, 0, 0⟩, ⟨101, 0, 0⟩, ⟨100, 1, 0⟩)]
  | _ => [(⟨0, 0, 0⟩, ⟨1, 0, 0⟩, ⟨0, 1, 0⟩)]

/-- Non-vacuity of C107_covers_partial: scene 0 with the far triangle and a light at infinity is built, scene 1 with another mesh and no light is built after it. -/
example : ∃ w w1, run (fun _ => false) (fun _ => true) exMeshes World.init (exCalls 0 0) = some w ∧ step (fun _ => false) (fun _ => true) exMeshes w (.build 0 5) = some w1 ∧ HasLight (w.scenes 0).nodes 0 ∧
    (∃ x y, OnScene (w.scenes 0).nodes exMeshes x ∧ OnScene (w.scenes 0).nodes exMeshes y ∧ x ≠ y) ∧
    ∃ w2, Later (fun _ => false) (fun _ => true) exMeshes 0 w1 [.edit 1 (.createPrimitive ⟨some 1, some 0, none, none, none⟩), .edit 1 (.addChild 0 1)] w2 := by
  obtain ⟨w, hw, hn, -, -⟩ := ex_edits (fun _ => false) (fun _ => true) rfl exMeshes World.init 0 0 rfl
  obtain ⟨w1, hb, -, -, -⟩ := ex_build (fun _ => false) (fun _ => true) rfl exMeshes w 0 0 hn
  obtain ⟨k1, k2, -⟩ := corner_on (ex_tri exMeshes 0 (⟨100, 0, 0⟩, ⟨101, 0, 0⟩, ⟨100, 1, 0⟩) (by simp [exMeshes]))
  refine ⟨w, w1, hw, hb, hn ▸ ex_hasLight 0, ⟨_, _, hn ▸ k1, hn ▸ k2, fun e => by have := congrArg V3.x e; norm_num at this⟩, _, .cons _ _ _ _ _ rfl trivial (.cons _ _ _ _ _ rfl trivial (.nil _))⟩

/-- C107, negation. The sphere belongs to the light, not to the scene: after building a second scene that uses the same light asset, no emission ray of the light, whatever the random numbers, passes through a
    point of the first scene, although neither the first scene nor the light was touched. -/
theorem C107_negation_shared : ∃ (meshes : Corners ℝ) (calls : List Call) (w w' : World), (∀ c ∈ calls, CallOk c) ∧ run (fun _ => false) (fun _ => true) meshes World.init calls = some w ∧
    step (fun _ => false) (fun _ => true) meshes w (.build 1 5) = some w' ∧ w'.scenes 0 = w.scenes 0 ∧ HasLight (w.scenes 0).nodes 0 ∧
    ∃ x d, OnScene (w.scenes 0).nodes meshes x ∧ V3.dot d d = 1 ∧
      (∃ c r, w.sphere 0 = some (c, r) ∧ ∀ sgn, ∃ us : RayU, us.Valid ∧ ∃ t : ℝ, 0 < t ∧ diskPoint sgn c r d us + t • d = x) ∧
      (∃ c r, w'.sphere 0 = some (c, r) ∧ ∀ sgn, ∀ us : RayU, us.Valid → ∀ t : ℝ, diskPoint sgn c r d us + t • d ≠ x) := by
  obtain ⟨w0, hw0, hn0, ho0, -⟩ := ex_edits (fun _ => false) (fun _ => true) rfl exMeshes World.init 0 0 rfl
  obtain ⟨w1, hw1, hn1, ho1, -⟩ := ex_edits (fun _ => false) (fun _ => true) rfl exMeshes w0 1 1 (by rw [ho0 1 (by decide)]; rfl)
  obtain ⟨w, hw, hk, hj, hs⟩ := ex_build (fun _ => false) (fun _ => true) rfl exMeshes w1 0 0 (by rw [ho1 0 (by decide)]; exact hn0)
  obtain ⟨w', hw', hk', hj', hs'⟩ := ex_build (fun _ => false) (fun _ => true) rfl exMeshes w 1 1 (by rw [hk]; exact hn1)
  have hn : (w.scenes 0).nodes = exNodes 0 := by rw [hk, ho1 0 (by decide)]; exact hn0
  obtain ⟨k1, k2, -⟩ := corner_on (ex_tri exMeshes 0 (⟨100, 0, 0⟩, ⟨101, 0, 0⟩, ⟨100, 1, 0⟩) (by simp [exMeshes]))
  have cx := fun z hz => C107_contains (exNodes 0) exMeshes 5 _ (ex_traverse 0) z hz
  obtain ⟨hr, hz⟩ := box_reached _ _ _ (cx _ k1) (cx _ k2) (fun e => by have := congrArg V3.x e; norm_num at this)
  refine ⟨exMeshes, exCalls 0 0 ++ (exCalls 1 1 ++ [.build 0 5]), w, w', ?_, ?_, hw', hj' 0 (by decide), hn ▸ ex_hasLight 0, ⟨100, 0, 0⟩, ⟨0, 0, 1⟩, hn ▸ k1, by norm_num [V3.dot], ⟨(sphereBound _ _).1, (sphereBound _ _).2, hs, ?_⟩, ⟨(sphereBound _ _).1, (sphereBound _ _).2, hs', ?_⟩⟩
  · intro c hc
    simp only [exCalls, List.mem_append, List.mem_cons, List.not_mem_nil, or_false] at hc
    rcases hc with (rfl | rfl | rfl | rfl) | (rfl | rfl | rfl | rfl) | rfl <;> exact trivial
  · have run_append : ∀ (a b : List Call) (w v : World), run (fun _ => false) (fun _ => true) exMeshes w a = some v → run (fun _ => false) (fun _ => true) exMeshes w (a ++ b) = run (fun _ => false) (fun _ => true) exMeshes v b := by
      intro a b
      induction a with
      | nil => intro w v h; cases h; rfl
      | cons c a ih =>
        intro w v h
        simp only [run, Option.bind_eq_some_iff] at h
        obtain ⟨u, h1, h2⟩ := h
        simp only [List.cons_append, run, h1, Option.bind_some]
        exact ih u v h2
    rw [run_append _ _ _ _ hw0, run_append _ _ _ _ hw1]
    simp only [run, hw, Option.bind_some]
  · intro sgn
    obtain ⟨us, hu, t, t1, -, ht⟩ := hz _ (cx _ k1) sgn ⟨0, 0, 1⟩ (by norm_num [V3.dot])
    exact ⟨us, hu, t, lt_of_lt_of_le (by positivity) t1, ht⟩
  · intro sgn us hu t ht
    have hb := ex_box exMeshes 1 ⟨⟨0, 0, 0⟩, ⟨1, 1, 1⟩⟩ (by norm_num [BoxLe, dflt, Bound.Inf, V3.all]) (by intro t ht; simp only [exMeshes, List.mem_singleton] at ht; subst ht; norm_num [In])
    have hd := (disk_line sgn _ _ ⟨0, 0, 1⟩ (by norm_num [V3.dot]) us hu t _ ht).2
    rw [sphere_r, sphere_c] at hd
    obtain ⟨l1, -, -⟩ := corner_on (ex_tri exMeshes 1 (⟨0, 0, 0⟩, ⟨1, 0, 0⟩, ⟨0, 1, 0⟩) (by simp [exMeshes]))
    obtain ⟨⟨m1, m2⟩, ⟨m3, m4⟩, m5, m6⟩ := C107_contains (exNodes 1) exMeshes 5 _ (ex_traverse 1) _ l1
    generalize sceneBound (exNodes 1) exMeshes [(0, 1), (1, 1), (2, 1)] = b at hb hd m1 m2 m3 m4 m5 m6
    obtain ⟨⟨b1, b2, b3⟩, b4, b5, b6⟩ := hb
    simp only at b1 b2 b3 b4 b5 b6 m1 m2 m3 m4 m5 m6
    have hh : half2 b ≤ 3 := by unfold half2; nlinarith
    have h0 : 0 ≤ half2 b := by unfold half2; positivity
    rw [mul_pow, Real.sq_sqrt h0] at hd
    simp only [V3.dot, V3.sub_x, V3.sub_y, V3.sub_z] at hd
    nlinarith [sq_nonneg ((b.max.y + b.min.y) / 2)]

/-- A triangle whose box is the cube of side 1/1000 at the origin. -/
noncomputable def exTiny : Corners ℝ := fun _ => [(⟨0, 0, 0⟩, ⟨1 / 1000, 0, 0⟩, ⟨0, 1 / 1000, 1 / 1000⟩)]

/-- C107, negation. "Reaches" is not "meets": the sphere is larger than the scene by one percent only, so in a scene of about a millimetre an emission ray along the diagonal arrives at a corner within less than
    10^-4, the distance below which ray queries ignore intersections. Every emission ray towards the corner does so. -/
theorem C107_negation_tiny : ∃ (calls : List Call) (w : World), (∀ c ∈ calls, CallOk c) ∧ run (fun _ => false) (fun _ => true) exTiny World.init calls = some w ∧ HasLight (w.scenes 0).nodes 0 ∧
    ∃ x d c r, OnScene (w.scenes 0).nodes exTiny x ∧ V3.dot d d = 1 ∧ w.sphere 0 = some (c, r) ∧ 0 < r ∧ ∀ sgn, ∀ us : RayU, us.Valid → ∀ t : ℝ, diskPoint sgn c r d us + t • d = x → t < 1 / 10000 := by
  obtain ⟨w0, hw0, hn0, -, -⟩ := ex_edits (fun _ => false) (fun _ => true) rfl exTiny World.init 0 0 rfl
  obtain ⟨w, hw, hk, hj, hs⟩ := ex_build (fun _ => false) (fun _ => true) rfl exTiny w0 0 0 hn0
  have hn : (w.scenes 0).nodes = exNodes 0 := by rw [hk]; exact hn0
  obtain ⟨k1, k2, k3⟩ := corner_on (ex_tri exTiny 0 (⟨0, 0, 0⟩, ⟨1 / 1000, 0, 0⟩, ⟨0, 1 / 1000, 1 / 1000⟩) (by simp [exTiny]))
  have cx := fun z hz => C107_contains (exNodes 0) exTiny 5 _ (ex_traverse 0) z hz
  obtain ⟨hr, -⟩ := box_reached _ _ _ (cx _ k1) (cx _ k2) (fun e => by have := congrArg V3.x e; norm_num at this)
  have s3 : Real.sqrt 3 * Real.sqrt 3 = 3 := Real.mul_self_sqrt (by norm_num)
  have s3p : 0 < Real.sqrt 3 := Real.sqrt_pos.mpr (by norm_num)
  have hd : V3.dot (⟨1 / Real.sqrt 3, 1 / Real.sqrt 3, 1 / Real.sqrt 3⟩ : V3 ℝ) ⟨1 / Real.sqrt 3, 1 / Real.sqrt 3, 1 / Real.sqrt 3⟩ = 1 := by simp only [V3.dot]; field_simp; nlinarith
  refine ⟨exCalls 0 0 ++ [.build 0 5], w, ?_, ?_, hn ▸ ex_hasLight 0, ⟨0, 0, 0⟩, ⟨1 / Real.sqrt 3, 1 / Real.sqrt 3, 1 / Real.sqrt 3⟩, (sphereBound _ _).1, (sphereBound _ _).2, hn ▸ k1, hd, hs, hr, ?_⟩
  · intro c hc
    simp only [exCalls, List.mem_append, List.mem_cons, List.not_mem_nil, or_false] at hc
    rcases hc with (rfl | rfl | rfl | rfl) | rfl <;> exact trivial
  · have e : run (fun _ => false) (fun _ => true) exTiny World.init (exCalls 0 0 ++ [.build 0 5]) = (run (fun _ => false) (fun _ => true) exTiny World.init (exCalls 0 0)).bind (fun v => step (fun _ => false) (fun _ => true) exTiny v (.build 0 5)) := by
      simp only [exCalls, List.cons_append, List.nil_append, run, step, Option.bind_some, Option.bind_fun_some]
    rw [e, hw0, Option.bind_some, hw]
  · intro sgn us hu t ht
    have e := (disk_line sgn _ _ _ hd us hu t _ ht).1
    rw [sphere_r, sphere_c] at e
    have hb := ex_box exTiny 0 ⟨⟨0, 0, 0⟩, ⟨1 / 1000, 1 / 1000, 1 / 1000⟩⟩ (by norm_num [BoxLe, dflt, Bound.Inf, V3.all]) (by intro t ht; simp only [exTiny, List.mem_singleton] at ht; subst ht; norm_num [In])
    have q1 := cx _ k1
    have q2 := cx _ k2
    have q3 := cx _ k3
    generalize sceneBound (exNodes 0) exTiny [(0, 1), (1, 1), (2, 1)] = b at hb e q1 q2 q3
    obtain ⟨⟨b1, b2, b3⟩, b4, b5, b6⟩ := hb
    obtain ⟨⟨a1, a2⟩, ⟨a3, a4⟩, a5, a6⟩ := q1
    obtain ⟨⟨c1, c2⟩, ⟨c3, c4⟩, c5, c6⟩ := q2
    obtain ⟨⟨d1, d2⟩, ⟨d3, d4⟩, d5, d6⟩ := q3
    simp only at *
    have e1 : b.min.x = 0 := le_antisymm a1 b1
    have e2 : b.min.y = 0 := le_antisymm a3 b2
    have e3 : b.min.z = 0 := le_antisymm a5 b3
    have e4 : b.max.x = 1 / 1000 := le_antisymm b4 c2
    have e5 : b.max.y = 1 / 1000 := le_antisymm b5 d4
    have e6 : b.max.z = 1 / 1000 := le_antisymm b6 d6
    have hh : half2 b = 3 * (1 / 2000) ^ 2 := by unfold half2; rw [e1, e2, e3, e4, e5, e6]; norm_num
    rw [hh, Real.sqrt_mul (by norm_num), Real.sqrt_sq (by norm_num), e1, e2, e3, e4, e5, e6] at e
    simp only [V3.dot, V3.sub_x, V3.sub_y, V3.sub_z] at e
    have hi : 1 / Real.sqrt 3 = Real.sqrt 3 / 3 := by field_simp; nlinarith
    rw [hi] at e
    have : Real.sqrt 3 < 2 := by nlinarith
    rw [e]; nlinarith

end LM.SceneBound
