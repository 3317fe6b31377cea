import Verif.Props.C49_Bidir
import Verif.Props.C76_Reciprocity
import Mathlib.Algebra.BigOperators.Intervals
import Mathlib.Tactic.NormNum.Ineq
/-
  C77: the measurement contribution does not depend on the strategy it is computed with.
-/
namespace LM.Path
open LM LM.Surface LM.Material LM.Light LM.Volume Finset

/-- Counting from the camera is counting backwards. -/
theorem vertexAt_EL (vs : List Vert) (j : Int) : vertexAt vs j .EL = vertexAt vs (vs.length - 1 - j) .LE := by
  unfold vertexAt index
  by_cases h : 0 ≤ j ∧ j < vs.length
  · have h' : 0 ≤ (vs.length : Int) - 1 - j ∧ (vs.length : Int) - 1 - j < vs.length := by omega
    rw [if_pos h, if_pos h', if_neg (show ¬ TransDir.EL = .LE by decide), if_pos rfl]
  · rw [if_neg h, if_neg (by omega)]

/-- The path has local terms r i at the vertices and g i at the edges: at vertex i light arriving from the previous vertex is scattered to the next one (or emitted, at the first vertex)
    with r i, and importance arriving from the next vertex to the previous one (or emitted at the last) with the same r i, delta components or not; the geometry term of edge i, i+1 is g i. -/
structure Terms (W : World) (vs : List Vert) (r : ℕ → V3 ℝ) (g : ℕ → ℝ) : Prop where
  vertex : ∀ i : ℕ, i < vs.length → ∃ v wl wr, vertexAt vs i .LE = some v ∧
    direction (some v) (vertexAt vs (i - 1) .LE) = some wl ∧ direction (some v) (vertexAt vs (i + 1) .LE) = some wr ∧
    (∀ e, i + 1 < vs.length → evalContrbDirection W v.sp wl wr v.comp .LE e = some (r i)) ∧
    (∀ e, 0 < i → evalContrbDirection W v.sp wr wl v.comp .EL e = some (r i))
  edge : ∀ (i : ℕ) a b, vertexAt vs i .LE = some a → vertexAt vs (i + 1) .LE = some b → geometryTerm a.sp.geom b.sp.geom = some (g i)

/-- Componentwise product of the first k values. -/
noncomputable def pv (f : ℕ → V3 ℝ) (k : ℕ) : V3 ℝ := ⟨∏ i ∈ range k, (f i).x, ∏ i ∈ range k, (f i).y, ∏ i ∈ range k, (f i).z⟩

theorem contrbLE (W : World) (vs : List Vert) (r : ℕ → V3 ℝ) (g : ℕ → ℝ) (H : Terms W vs r g) (k : ℕ) : ∀ (i : ℕ) (acc : V3 ℝ), i + k < vs.length →
    contrbLoop W vs .LE k i acc = some (acc * pv (fun j => g (i + j) • r (i + j)) k) := by
  induction k with
  | zero => intro i acc _; simp [contrbLoop, pv]; ext <;> simp
  | succ k ih =>
    intro i acc h
    obtain ⟨v, wl, wr, hv, hwl, hwr, hf, -⟩ := H.vertex i (by omega)
    obtain ⟨v', -, -, hv', -⟩ := H.vertex (i + 1) (by omega)
    push_cast at hv'
    rw [contrbLoop]
    rw [hv'] at hwr
    simp only [hv, hv', hwl, hwr, Option.bind_eq_bind, Option.bind_some, hf false (by omega), H.edge i v v' hv hv']
    have := ih (i + 1) (g i • (acc * r i)) (by omega)
    push_cast at this
    rw [this]
    congr 1
    have e : ∀ j, i + 1 + j = i + (j + 1) := fun j => by omega
    ext <;> simp [pv, prod_range_succ', e] <;> ring

theorem contrbEL (W : World) (vs : List Vert) (r : ℕ → V3 ℝ) (g : ℕ → ℝ) (H : Terms W vs r g) (k : ℕ) : ∀ (i : ℕ) (acc : V3 ℝ), i + k < vs.length →
    contrbLoop W vs .EL k i acc = some (acc * pv (fun j => g (vs.length - 2 - (i + j)) • r (vs.length - 1 - (i + j))) k) := by
  induction k with
  | zero => intro i acc _; simp [contrbLoop, pv]; ext <;> simp
  | succ k ih =>
    intro i acc h
    obtain ⟨m, hm⟩ : ∃ m : ℕ, vs.length = m + i + 2 := ⟨vs.length - (i + 2), by omega⟩
    obtain ⟨v, wl, wr, hv, hwl, hwr, -, hf⟩ := H.vertex (m + 1) (by omega)
    obtain ⟨v', -, -, hv', -⟩ := H.vertex m (by omega)
    push_cast at hv hwl hwr
    have e0 : vertexAt vs (i : Int) .EL = some v := by rw [vertexAt_EL, hm, ← hv]; congr 1; push_cast; ring
    have e1 : vertexAt vs ((i : Int) + 1) .EL = some v' := by rw [vertexAt_EL, hm, ← hv']; congr 1; push_cast; ring
    have e2 : vertexAt vs ((i : Int) - 1) .EL = vertexAt vs ((m : Int) + 1 + 1) .LE := by rw [vertexAt_EL, hm]; congr 1; push_cast; ring
    have e3 : ((m : Int) + 1 - 1) = m := by ring
    rw [e3, hv'] at hwl
    have hG : geometryTerm v.sp.geom v'.sp.geom = some (g m) := by
      rw [C43_symmetric]; exact H.edge m v' v hv' (by rw [hv])
    rw [contrbLoop]
    simp only [e0, e1, e2, hwl, hwr, Option.bind_eq_bind, Option.bind_some, hf false (by omega), hG]
    have := ih (i + 1) (g m • (acc * r (m + 1))) (by omega)
    push_cast at this
    rw [this]
    congr 1
    have e : ∀ j, i + 1 + j = i + (j + 1) := fun j => by omega
    have a1 : vs.length - 2 - i = m := by omega
    have a2 : vs.length - 1 - i = m + 1 := by omega
    ext <;> simp [pv, prod_range_succ', e, a1, a2] <;> ring

theorem regroup (g r : ℕ → ℝ) (n s : ℕ) (hs : s < n) :
    (∏ i ∈ range s, g i * r i) * r s * ∏ m ∈ range (n - s - 1), g (n - 2 - m) * r (n - 1 - m) = (∏ i ∈ range (n - 1), g i) * ∏ i ∈ range n, r i := by
  obtain ⟨k, rfl⟩ : ∃ k, n = s + 1 + k := ⟨n - (s + 1), by omega⟩
  have h1 : s + 1 + k - s - 1 = k := by omega
  have h2 : s + 1 + k - 1 = s + k := by omega
  rw [h1, h2]
  have h3 : ∏ m ∈ range k, g (s + 1 + k - 2 - m) * r (s + k - m) = ∏ m ∈ range k, g (s + m) * r (s + 1 + m) := by
    rw [← prod_range_reflect]
    refine prod_congr rfl (fun m hm => ?_)
    rw [mem_range] at hm
    have a1 : s + 1 + k - 2 - (k - 1 - m) = s + m := by omega
    have a2 : s + k - (k - 1 - m) = s + 1 + m := by omega
    rw [a1, a2]
  rw [h3, prod_mul_distrib, prod_mul_distrib, prod_range_add g, prod_range_add r, prod_range_succ]
  ring

/-- C77 under reciprocity: for every path of at least two vertices whose vertices scatter the same amount in both transport directions, every strategy computes the same measurement contribution,
    the product of all geometry terms and all local terms. Missing: vertices that scatter differently in the two directions, such as those with interpolated normals (C77_negation_shading_normal). -/
theorem C77_reciprocal_partial (W : World) (vs : List Vert) (h2 : 2 ≤ vs.length) (r : ℕ → V3 ℝ) (g : ℕ → ℝ) (H : Terms W vs r g) (s : ℕ) (hs : s ≤ vs.length) :
    measurementContrb W vs s = some ((∏ i ∈ range (vs.length - 1), g i) • ⟨∏ i ∈ range vs.length, (r i).x, ∏ i ∈ range vs.length, (r i).y, ∏ i ∈ range vs.length, (r i).z⟩) := by
  have hL : subpathContrb W vs s .LE = some (pv (fun j => g j • r j) (s - 1)) := by
    unfold subpathContrb
    by_cases h0 : s = 0
    · rw [if_pos h0, h0]; simp [pv, V3.all]
    · rw [if_neg h0]
      have := contrbLE W vs r g H (s - 1) 0 (V3.all 1) (by omega)
      simp only [Nat.zero_add, Nat.cast_zero] at this
      rw [this]
      congr 1
      ext <;> simp [V3.all]
  have hE : subpathContrb W vs (vs.length - s) .EL = some (pv (fun j => g (vs.length - 2 - j) • r (vs.length - 1 - j)) (vs.length - s - 1)) := by
    unfold subpathContrb
    by_cases h0 : vs.length - s = 0
    · rw [if_pos h0, h0]; simp [pv, V3.all]
    · rw [if_neg h0]
      have := contrbEL W vs r g H (vs.length - s - 1) 0 (V3.all 1) (by omega)
      simp only [Nat.zero_add, Nat.cast_zero] at this
      rw [this]
      congr 1
      ext <;> simp [V3.all]
  rw [measurementContrb, hL, hE]
  simp only [Option.bind_eq_bind, Option.bind_some]
  by_cases h0 : s = 0
  · -- all vertices from the camera
    subst h0
    obtain ⟨v, wl, wr, hv, hwl, hwr, hf, -⟩ := H.vertex 0 (by omega)
    have hm : vertexAt vs (((0 : ℕ) : Int) - 1) .LE = none := by simp [vertexAt]
    rw [hm] at hwl
    have : wl = 0 := by simpa [direction] using hwl.symm
    subst this
    have hc : connectionTerm W vs 0 = some (r 0) := by
      rw [connectionTerm]
      simp only [Nat.cast_zero, zero_add, sub_zero] at hv hwr ⊢
      rw [if_pos ⟨trivial, by omega⟩]
      simp only [hv, hwr, Option.bind_eq_bind, Option.bind_some, hf true (by omega)]
    rw [hc]
    simp only [Option.bind_some, Option.pure_def, Option.some.injEq]
    have R := fun c => regroup g c vs.length 0 (by omega)
    simp only [range_zero, prod_empty, one_mul, Nat.sub_zero] at R
    ext <;> simp [pv]
    · exact R (fun i => (r i).x)
    · exact R (fun i => (r i).y)
    · exact R (fun i => (r i).z)
  by_cases hn : s = vs.length
  · -- all vertices from the light
    obtain ⟨v, wl, wr, hv, hwl, hwr, -, hf⟩ := H.vertex (vs.length - 1) (by omega)
    have hcast : ((vs.length - 1 : ℕ) : Int) = vs.length - 1 := by omega
    rw [hcast] at hv hwl hwr
    have hm : vertexAt vs ((vs.length : Int) - 1 + 1) .LE = none := by simp [vertexAt]
    rw [hm] at hwr
    have : wr = 0 := by simpa [direction] using hwr.symm
    subst this
    have hc : connectionTerm W vs s = some (r (vs.length - 1)) := by
      rw [connectionTerm]
      have e0 : vertexAt vs 0 .EL = some v := by rw [vertexAt_EL, ← hv]; congr 1; ring
      have e1 : vertexAt vs 1 .EL = vertexAt vs ((vs.length : Int) - 1 - 1) .LE := by rw [vertexAt_EL]
      rw [if_neg (by omega), if_pos (by omega)]
      simp only [e0, e1, hwl, Option.bind_eq_bind, Option.bind_some, hf true (by omega)]
    rw [hc]
    simp only [Option.bind_some, Option.pure_def, Option.some.injEq]
    have R := fun c => regroup g c vs.length (vs.length - 1) (by omega)
    have e : vs.length - (vs.length - 1) - 1 = 0 := by omega
    simp only [e, range_zero, prod_empty, mul_one] at R
    subst hn
    have e2 : vs.length - vs.length - 1 = 0 := by omega
    rw [e2]
    ext
    · simpa [pv] using R (fun i => (r i).x)
    · simpa [pv] using R (fun i => (r i).y)
    · simpa [pv] using R (fun i => (r i).z)
  · -- a connection of vertices s - 1 and s
    obtain ⟨m, rfl⟩ : ∃ m, s = m + 1 := ⟨s - 1, by omega⟩
    obtain ⟨v, wl, wr, hv, hwl, hwr, hf, -⟩ := H.vertex m (by omega)
    obtain ⟨v', wl', wr', hv', hwl', hwr', -, hf'⟩ := H.vertex (m + 1) (by omega)
    have hG := H.edge m v v' hv (by push_cast at hv'; exact hv')
    push_cast at hv' hwl' hwr'
    have hc : connectionTerm W vs (m + 1) = some ((g m • r m) * r (m + 1)) := by
      rw [connectionTerm]
      rw [if_neg (by omega), if_neg (by omega), if_pos (by omega)]
      have a1 : ((m + 1 : ℕ) : Int) - 1 = m := by push_cast; ring
      have a2 : ((m + 1 : ℕ) : Int) - 2 = m - 1 := by push_cast; ring
      have b1 : vertexAt vs ((vs.length : Int) - (m + 1 : ℕ) - 1) .EL = some v' := by rw [vertexAt_EL, ← hv']; congr 1; push_cast; ring
      have b2 : vertexAt vs ((vs.length : Int) - (m + 1 : ℕ) - 2) .EL = vertexAt vs ((m : Int) + 1 + 1) .LE := by rw [vertexAt_EL]; congr 1; push_cast; ring
      rw [add_sub_cancel_right, hv] at hwl'
      rw [hv'] at hwr
      simp only [a1, a2, b1, b2, hv, hwl, hwr, hwr', hwl', hG, Option.bind_eq_bind, Option.bind_some, hf true (by omega), hf' true (by omega)]
      rfl
    rw [hc]
    simp only [Option.bind_some, Option.pure_def, Option.some.injEq]
    have R := fun c => regroup g c vs.length (m + 1) (by omega)
    simp only [prod_range_succ] at R
    have key : ∀ c : ℕ → ℝ, (∏ i ∈ range m, g i * c i) * (g m * c m * c (m + 1)) * (∏ j ∈ range (vs.length - (m + 1) - 1), g (vs.length - 2 - j) * c (vs.length - 1 - j)) =
        (∏ i ∈ range (vs.length - 1), g i) * ∏ i ∈ range vs.length, c i := by
      intro c; rw [← R c]; ring
    ext
    · simpa [pv] using key (fun i => (r i).x)
    · simpa [pv] using key (fun i => (r i).y)
    · simpa [pv] using key (fun i => (r i).z)

/-! ### Surfaces without shading normals -/

theorem snc_swap (g : Geom) (h : g.n = g.gn) (wi wo : V3 ℝ) : shadingNormalCorrection g wi wo .LE = shadingNormalCorrection g wo wi .EL := by
  by_cases hs : SameSide g wi ∧ SameSide g wo
  · have hi : V3.dot wi g.n ≠ 0 := by intro e; have := hs.1; unfold SameSide at this; rw [e] at this; simp at this
    have ho : V3.dot wo g.n ≠ 0 := by intro e; have := hs.2; unfold SameSide at this; rw [e] at this; simp at this
    rw [C44_same_normals g h wi wo hi ho, C44_same_normals g h wo wi ho hi]
  · rw [(C44_zero_iff g wi wo .LE).mpr hs, (C44_zero_iff g wo wi .EL).mpr (fun c => hs ⟨c.2, c.1⟩)]

/-- Two vertices between which direction and geometry term are defined: not both at infinity, and not the same point. -/
def Apart (a b : Vert) : Prop := ¬ (a.sp.geom.infinite = true ∧ b.sp.geom.infinite = true) ∧ (a.sp.geom.infinite = false → b.sp.geom.infinite = false → a.sp.geom.p ≠ b.sp.geom.p)

theorem Apart.symm {a b : Vert} (h : Apart a b) : Apart b a := ⟨fun c => h.1 ⟨c.2, c.1⟩, fun h1 h2 e => h.2 h2 h1 e.symm⟩

theorem sub_dot_ne {p q : V3 ℝ} (h : p ≠ q) : V3.dot (q - p) (q - p) ≠ 0 := by
  intro e
  have := dot_self_zero e
  apply h
  have hx := congrArg V3.x this
  have hy := congrArg V3.y this
  have hz := congrArg V3.z this
  simp at hx hy hz
  ext <;> linarith

theorem Apart.direction {a b : Vert} (h : Apart a b) : ∃ d, direction (some a) (some b) = some d := by
  unfold LM.Path.direction
  cases h1 : a.sp.geom.infinite <;> cases h2 : b.sp.geom.infinite
  · simp [h1, h2, Material.normalize, sub_dot_ne (h.2 h1 h2)]
  · simp [h1, h2]
  · simp [h1, h2]
  · exact absurd ⟨h1, h2⟩ h.1

theorem Apart.geometryTerm {a b : Vert} (h : Apart a b) : ∃ G, geometryTerm a.sp.geom b.sp.geom = some G := by
  unfold LM.Surface.geometryTerm
  cases h1 : a.sp.geom.infinite <;> cases h2 : b.sp.geom.infinite
  · simp [sub_dot_ne (h.2 h1 h2)]
  · simp [h1, h2]
  · simp [h1, h2]
  · exact absurd ⟨h1, h2⟩ h.1

/-- A surface whose material scatters reciprocally (diffuse, glossy) and is seen without interpolated normals. -/
def PlainSurface (W : World) (v : Vert) : Prop :=
  v.sp.kind = .surface ∧ v.sp.geom.n = v.sp.geom.gn ∧ ∃ Kd, W.materialAt v.sp.primitive = some (diffuse Kd)

/-- C77 for paths whose inner vertices scatter alike in both transport directions: the path starts at a light whose emission has no delta part and ends at the camera; at each vertex between, what is scattered of
    the light from the previous vertex to the next is what is scattered of the importance from the next vertex to the previous, delta components or not. Whatever the number of vertices, all strategies agree on the measurement contribution. Missing: vertices that scatter differently in the two directions (C77_negation_shading_normal). -/
theorem C77_local_partial (W : World) (vs : List Vert) (h2 : 2 ≤ vs.length)
    (first : ∀ v, vs[0]? = some v → v.sp.kind = .light ∧ ∃ L, W.lightAt v.sp.primitive = some L ∧ ∀ wo, L.eval v.sp.geom wo true = L.eval v.sp.geom wo false)
    (last : ∀ v, vs[vs.length - 1]? = some v → v.sp.kind = .camera ∧ ∃ c, W.cameraAt v.sp.primitive = some c ∧ ∀ wo, ∃ f, camEval c wo = some f)
    (inner : ∀ (i : ℕ) v wl wr, 0 < i → i + 1 < vs.length → vs[i]? = some v → direction (some v) (vertexAt vs (i - 1) .LE) = some wl → direction (some v) (vertexAt vs (i + 1) .LE) = some wr →
      ∃ r, ∀ e, evalContrbDirection W v.sp wl wr v.comp .LE e = some r ∧ evalContrbDirection W v.sp wr wl v.comp .EL e = some r)
    (apart : ∀ (i : ℕ) a b, vs[i]? = some a → vs[i + 1]? = some b → Apart a b) :
    ∃ f, ∀ s ≤ vs.length, measurementContrb W vs s = some f := by
  have at' : ∀ i : ℕ, i < vs.length → ∃ v, vs[i]? = some v ∧ vertexAt vs i .LE = some v := by
    intro i hi
    refine ⟨vs[i], by simp [hi], ?_⟩
    unfold vertexAt index
    rw [if_pos (by omega), if_pos rfl]
    simp [hi]
  have V : ∀ i : ℕ, ∃ r : V3 ℝ, i < vs.length → ∃ v wl wr, vertexAt vs i .LE = some v ∧
      direction (some v) (vertexAt vs (i - 1) .LE) = some wl ∧ direction (some v) (vertexAt vs (i + 1) .LE) = some wr ∧
      (∀ e, i + 1 < vs.length → evalContrbDirection W v.sp wl wr v.comp .LE e = some r) ∧
      (∀ e, 0 < i → evalContrbDirection W v.sp wr wl v.comp .EL e = some r) := by
    intro i
    by_cases hi : i < vs.length
    swap
    · exact ⟨0, fun h => absurd h hi⟩
    obtain ⟨v, hv, hvL⟩ := at' i hi
    have dl : ∃ wl, direction (some v) (vertexAt vs ((i : Int) - 1) .LE) = some wl := by
      by_cases h0 : i = 0
      · have : vertexAt vs ((i : Int) - 1) .LE = none := by simp [vertexAt, h0]
        rw [this]; exact ⟨0, rfl⟩
      · obtain ⟨m, rfl⟩ : ∃ m, i = m + 1 := ⟨i - 1, by omega⟩
        obtain ⟨u, hu, huL⟩ := at' m (by omega)
        have e : ((m + 1 : ℕ) : Int) - 1 = m := by push_cast; ring
        rw [e, huL]
        exact (apart m u v hu hv).symm.direction
    have dr : ∃ wr, direction (some v) (vertexAt vs ((i : Int) + 1) .LE) = some wr := by
      by_cases h0 : i + 1 < vs.length
      · obtain ⟨u, hu, huL⟩ := at' (i + 1) h0
        push_cast at huL
        rw [huL]
        exact (apart i v u hv hu).direction
      · have : vertexAt vs ((i : Int) + 1) .LE = none := by
          unfold vertexAt; rw [if_neg (by omega)]
        rw [this]; exact ⟨0, rfl⟩
    obtain ⟨wl, hwl⟩ := dl
    obtain ⟨wr, hwr⟩ := dr
    by_cases h0 : i = 0
    · subst h0
      obtain ⟨hk, L, hL, he⟩ := first v hv
      refine ⟨L.eval v.sp.geom wr false, fun _ => ⟨v, wl, wr, hvL, hwl, hwr, ?_, fun _ h => absurd h (by omega)⟩⟩
      intro e _
      simp only [evalContrbDirection, hk, hL]
      cases e
      · rfl
      · rw [he]
    · by_cases h1 : i + 1 < vs.length
      · obtain ⟨r, hr⟩ := inner i v wl wr (by omega) h1 hv hwl hwr
        exact ⟨r, fun _ => ⟨v, wl, wr, hvL, hwl, hwr, fun e _ => (hr e).1, fun e _ => (hr e).2⟩⟩
      · have hi' : i = vs.length - 1 := by omega
        rw [hi'] at hv
        obtain ⟨hk, c, hc, hce⟩ := last v hv
        obtain ⟨f, hf⟩ := hce wl
        refine ⟨f, fun _ => ⟨v, wl, wr, hvL, hwl, hwr, fun _ h => absurd h h1, ?_⟩⟩
        intro e _
        simp only [evalContrbDirection, hk, hc, hf]
  have G : ∀ i : ℕ, ∃ G : ℝ, ∀ a b, vertexAt vs i .LE = some a → vertexAt vs (i + 1) .LE = some b → geometryTerm a.sp.geom b.sp.geom = some G := by
    intro i
    by_cases hi : i + 1 < vs.length
    · obtain ⟨a, ha, haL⟩ := at' i (by omega)
      obtain ⟨b, hb, hbL⟩ := at' (i + 1) hi
      obtain ⟨G, hG⟩ := (apart i a b ha hb).geometryTerm
      refine ⟨G, fun a' b' ha' hb' => ?_⟩
      push_cast at hbL
      rw [haL] at ha'
      rw [hbL] at hb'
      injection ha' with ha'
      injection hb' with hb'
      rw [← ha', ← hb', hG]
    · refine ⟨0, fun a b _ hb => ?_⟩
      unfold vertexAt at hb
      rw [if_neg (by omega)] at hb
      cases hb
  choose r hr using V
  choose g hg using G
  exact ⟨_, fun s hs => C77_reciprocal_partial W vs h2 r g ⟨hr, hg⟩ s hs⟩

/-- C77 for diffuse scenes: the path starts at a light whose emission has no delta part, ends at the camera, and all vertices between are diffuse surfaces with equal shading and geometric
    normals. Whatever the number of vertices, all strategies agree on the measurement contribution. Missing: interpolated normals (C77_negation_shading_normal). -/
theorem C77_diffuse_partial (W : World) (vs : List Vert) (h2 : 2 ≤ vs.length)
    (first : ∀ v, vs[0]? = some v → v.sp.kind = .light ∧ ∃ L, W.lightAt v.sp.primitive = some L ∧ ∀ wo, L.eval v.sp.geom wo true = L.eval v.sp.geom wo false)
    (last : ∀ v, vs[vs.length - 1]? = some v → v.sp.kind = .camera ∧ ∃ c, W.cameraAt v.sp.primitive = some c ∧ ∀ wo, ∃ f, camEval c wo = some f)
    (inner : ∀ (i : ℕ) v, 0 < i → i + 1 < vs.length → vs[i]? = some v → PlainSurface W v)
    (apart : ∀ (i : ℕ) a b, vs[i]? = some a → vs[i + 1]? = some b → Apart a b) :
    ∃ f, ∀ s ≤ vs.length, measurementContrb W vs s = some f := by
  refine C77_local_partial W vs h2 first last (fun i v wl wr h0 h1 hv _ _ => ?_) apart
  obtain ⟨hk, hn, Kd, hm⟩ := inner i v h0 h1 hv
  refine ⟨shadingNormalCorrection v.sp.geom wl wr .LE • (if opposite v.sp.geom wl wr then 0 else (1 / Real.pi) • Kd v.sp.geom), fun e => ⟨?_, ?_⟩⟩
  · simp only [evalContrbDirection, hk, hm, Option.bind_some, diffuse, Option.map_some]
  · have hop : opposite v.sp.geom wr wl = opposite v.sp.geom wl wr := by simp only [opposite, mul_comm]
    simp only [evalContrbDirection, hk, hm, Option.bind_some, diffuse, Option.map_some]
    rw [snc_swap v.sp.geom hn wl wr, hop]

/-- The path of the example scene meets the hypotheses. -/
example : ∃ f, ∀ s ≤ exPath.length, measurementContrb exLine exPath s = some f := by
  refine C77_diffuse_partial exLine exPath (by decide) ?_ ?_ ?_ ?_
  · intro v hv
    cases hv
    exact ⟨rfl, _, rfl, fun _ => rfl⟩
  · intro v hv
    cases hv
    refine ⟨rfl, exCam, rfl, fun wo => ?_⟩
    unfold camEval
    cases h : rasterPosition exCam wo with
    | none => exact ⟨_, rfl⟩
    | some x =>
      unfold rasterPosition at h
      simp only at h
      split_ifs at h with h1 h2
      have hz : (toEye exCam wo).z ≠ 0 := by intro e; exact h1 (by rw [e])
      have hz' : -(toEye exCam wo).z ≠ 0 := neg_ne_zero.mpr hz
      have ht : exCam.tf * exCam.tf * exCam.aspect * 4 ≠ 0 := by norm_num [exCam]
      simp [camJ, divF, hz, ht]
  · intro i v h1 h2 hv
    have : i = 1 := by have : i + 1 < 3 := h2; omega
    subst this
    cases hv
    exact ⟨rfl, rfl, _, rfl⟩
  · intro i a b ha hb
    match i, ha, hb with
    | 0, ha, hb =>
      cases ha; cases hb
      refine ⟨by simp [exL, exS, makeDegenerated], fun _ _ e => ?_⟩
      have := congrArg V3.z e
      norm_num [exL, exS, makeDegenerated] at this
    | 1, ha, hb =>
      cases ha; cases hb
      refine ⟨by simp [exS, exE, makeDegenerated], fun _ _ e => ?_⟩
      have := congrArg V3.z e
      norm_num [exS, exE, makeDegenerated] at this

/-! ### Shading normals -/

/-- A camera at (4, 0, 3) looking at the origin. -/
noncomputable def exCam2 : Camera := ⟨⟨4, 0, 3⟩, ⟨0, 1, 0⟩, ⟨-3/5, 0, 4/5⟩, ⟨4/5, 0, 3/5⟩, 1, 2⟩
noncomputable def exTilt : World := { exLine with light := fun _ => point (V3.all 1) ⟨0, 0, 1⟩ 0, camera := fun _ => exCam2 }
noncomputable def tL : Vert := ⟨⟨.light, 1, makeDegenerated ⟨0, 0, 1⟩ 0⟩, 0⟩
/-- a surface point with an interpolated normal -/
noncomputable def tS : Vert := ⟨⟨.surface, 2, ⟨false, false, 0, ⟨0, 0, 1⟩, ⟨3/5, 0, 4/5⟩, 0, ⟨1, 0, 0⟩, ⟨0, 1, 0⟩⟩⟩, 0⟩
noncomputable def tE : Vert := ⟨⟨.camera, 3, makeDegenerated ⟨4, 0, 3⟩ 0⟩, 0⟩

theorem tLS : direction (some tL) (some tS) = some ⟨0, 0, -1⟩ := by
  simp [direction, tL, tS, makeDegenerated, Material.normalize, V3.dot]; ext <;> simp
theorem tSL : direction (some tS) (some tL) = some ⟨0, 0, 1⟩ := by
  simp [direction, tL, tS, makeDegenerated, Material.normalize, V3.dot]
theorem sqrt25 : Real.sqrt (4 * 4 + 3 * 3) = 5 := by rw [show (4 * 4 + 3 * 3 : ℝ) = 5 * 5 by norm_num]; exact Real.sqrt_mul_self (by norm_num)
theorem tSE : direction (some tS) (some tE) = some ⟨4/5, 0, 3/5⟩ := by
  have : ¬ (4 * 4 + 3 * 3 : ℝ) = 0 := by norm_num
  simp [direction, tE, tS, makeDegenerated, Material.normalize, V3.dot, sqrt25, this]; ext <;> simp <;> norm_num
theorem tES : direction (some tE) (some tS) = some ⟨-(4/5), 0, -(3/5)⟩ := by
  have : ¬ (4 * 4 + 3 * 3 : ℝ) = 0 := by norm_num
  simp [direction, tE, tS, makeDegenerated, Material.normalize, V3.dot, sqrt25, this]; ext <;> simp <;> norm_num
theorem tGLS : geometryTerm tL.sp.geom tS.sp.geom = some 1 := by
  simp [geometryTerm, tL, tS, makeDegenerated, V3.dot]
theorem tGSE : geometryTerm tS.sp.geom tE.sp.geom = some (3 / 125) := by
  have : ¬ (4 * 4 + 3 * 3 : ℝ) = 0 := by norm_num
  simp [geometryTerm, tE, tS, makeDegenerated, V3.dot, sqrt25, this]
  norm_num
theorem tSurf (wi wo : V3 ℝ) (dir : TransDir) (e : Bool) (ho : opposite tS.sp.geom wi wo = false) :
    evalContrbDirection exTilt tS.sp wi wo tS.comp dir e = some (shadingNormalCorrection tS.sp.geom wi wo dir • (1 / Real.pi) • V3.all 1) := by
  have : exTilt.materialAt tS.sp.primitive = some (diffuse (fun _ => V3.all 1)) := rfl
  have hk : tS.sp.kind = .surface := rfl
  simp only [evalContrbDirection, hk, this, Option.bind_some, diffuse, ho, Option.map_some, if_false, Bool.false_eq_true]
theorem tCamEval (e : Bool) : evalContrbDirection exTilt tE.sp 0 ⟨-(4/5), 0, -(3/5)⟩ tE.comp .EL e = some (V3.all (1 / 8)) := by
  have : exTilt.cameraAt tE.sp.primitive = some exCam2 := rfl
  have hk : tE.sp.kind = .camera := rfl
  simp only [evalContrbDirection, hk, this]
  have hz : toEye exCam2 ⟨-(4/5), 0, -(3/5)⟩ = ⟨0, 0, -1⟩ := by
    unfold toEye exCam2 V3.dot; ext <;> norm_num
  have ht : exCam2.tf = 1 ∧ exCam2.aspect = 2 := ⟨rfl, rfl⟩
  simp [camEval, rasterPosition, camJ, hz, ht, divF]; norm_num

/-- C77 fails on surfaces with interpolated normals: light at distance 1 above a diffuse surface point, camera at distance 5, shading normal (0, 0, 1), geometric normal (3/5, 0, 4/5). Connecting
    one light vertex with two eye vertices gives the contribution f, connecting two light vertices with one eye vertex gives 2 f: the shading normal correction is applied in one direction only,
    while the geometry terms use the shading normal in both. -/
theorem C77_negation_shading_normal : ∃ f, f ≠ 0 ∧ measurementContrb exTilt [tL, tS, tE] 1 = some f ∧ measurementContrb exTilt [tL, tS, tE] 2 = some ((2 : ℝ) • f) := by
  have oLE : opposite tS.sp.geom ⟨0, 0, 1⟩ ⟨4/5, 0, 3/5⟩ = false := by norm_num [opposite, tS, V3.dot]
  have oEL : opposite tS.sp.geom ⟨4/5, 0, 3/5⟩ ⟨0, 0, 1⟩ = false := by norm_num [opposite, tS, V3.dot]
  have cLE : shadingNormalCorrection tS.sp.geom ⟨0, 0, 1⟩ ⟨4/5, 0, 3/5⟩ .LE = 2 := by
    norm_num [shadingNormalCorrection, tS, V3.dot, toLocal, LM.MathF.localCos]
  have cEL : shadingNormalCorrection tS.sp.geom ⟨4/5, 0, 3/5⟩ ⟨0, 0, 1⟩ .EL = 1 := by
    have : ¬ TransDir.EL = TransDir.LE := by decide
    norm_num [this, shadingNormalCorrection, tS, V3.dot, toLocal, LM.MathF.localCos]
  have l0 : vertexAt [tL, tS, tE] 0 .LE = some tL := rfl
  have l1 : vertexAt [tL, tS, tE] 1 .LE = some tS := rfl
  have lm : vertexAt [tL, tS, tE] (-1) .LE = none := rfl
  have e0 : vertexAt [tL, tS, tE] 0 .EL = some tE := rfl
  have e1 : vertexAt [tL, tS, tE] 1 .EL = some tS := rfl
  have em : vertexAt [tL, tS, tE] (-1) .EL = none := rfl
  have dn : ∀ v, direction (some v) none = some 0 := fun _ => rfl
  have fL : ∀ e, evalContrbDirection exTilt tL.sp 0 ⟨0, 0, -1⟩ tL.comp .LE e = some (V3.all 1) := fun _ => rfl
  have gES : geometryTerm tE.sp.geom tS.sp.geom = some (3 / 125) := by rw [C43_symmetric]; exact tGSE
  refine ⟨V3.all (3 / 1000 / Real.pi), ?_, ?_, ?_⟩
  · intro e
    have := congrArg V3.x e
    simp [V3.all, Real.pi_ne_zero] at this
  · have hE : subpathContrb exTilt [tL, tS, tE] 2 .EL = some (V3.all (3 / 1000)) := by
      simp [subpathContrb, contrbLoop, e0, e1, em, dn, tES, tCamEval, gES]
      ext <;> simp [V3.all] <;> norm_num
    have hL : subpathContrb exTilt [tL, tS, tE] 1 .LE = some (V3.all 1) := rfl
    have hc : connectionTerm exTilt [tL, tS, tE] 1 = some (V3.all (1 / Real.pi)) := by
      rw [connectionTerm]
      simp [l0, e1, e0, lm, dn, tLS, tSL, tSE, fL, tSurf _ _ _ _ oEL, cEL, tGLS]
      ext <;> simp [V3.all]
    have hl : [tL, tS, tE].length - 1 = 2 := rfl
    rw [measurementContrb, hl, hL, hE, hc]
    simp
    ext <;> simp [V3.all] <;> ring
  · have hL : subpathContrb exTilt [tL, tS, tE] 2 .LE = some (V3.all 1) := by
      simp [subpathContrb, contrbLoop, l0, l1, lm, dn, tLS, fL, tGLS]
      ext <;> simp [V3.all]
    have hE : subpathContrb exTilt [tL, tS, tE] 1 .EL = some (V3.all 1) := rfl
    have hc : connectionTerm exTilt [tL, tS, tE] 2 = some (V3.all (3 / 500 / Real.pi)) := by
      rw [connectionTerm]
      simp [l0, l1, e0, em, dn, tSL, tSE, tES, tSurf _ _ _ _ oLE, cLE, tGSE, tCamEval]
      ext <;> simp [V3.all] <;> ring
    have hl : [tL, tS, tE].length - 2 = 1 := rfl
    rw [measurementContrb, hl, hL, hE, hc]
    simp
    ext <;> simp [V3.all] <;> ring

end LM.Path
