import Verif.Model.ObjModel
import Verif.Props.C61_Faces
import Mathlib.Analysis.SpecialFunctions.Sqrt
/-
  C62: the primitives of a Wavefront OBJ model.
-/
namespace LM.Obj
open LM

/-! ### Specification -/

/-- Material names that cannot be confused with each other or with the names the model makes for meshes, lights and textures. -/
structure GoodNames (c : Config) (ms : List (Mat ℝ)) : Prop where
  distinct : (ms.map (·.name)).Nodup
  mesh : ∀ m ∈ ms, ∀ n, m.name ≠ meshName n ∧ m.name ≠ lightName n
  texture : ∀ m ∈ ms, ∀ m' ∈ ms, m.name ≠ textureId c m'.mapKd

open Classical in
/-- The triple of a mesh of the file: its faces, its material, and a light with the radiance of the material on this mesh exactly when the material emits. -/
structure Triple (c : Config) (e : List FaceIndex × Mat ℝ) (t : Asset × Asset × Option Asset) : Prop where
  mesh : t.1 = .mesh e.1
  material : t.2.1 = matAsset c e.2
  light : (emits e.2.Ke ∧ ∃ n, t.2.2 = some (.light e.2.Ke (meshName n))) ∨ (¬ emits e.2.Ke ∧ t.2.2 = none)

/-! ### Names -/

theorem fmtNat_eq (n : ℕ) : fmtNat n = dec n := by
  induction n using Nat.strong_induction_on with
  | _ n ih =>
    rw [fmtNat, dec]
    split
    · rfl
    · rw [ih (n / 10) (by omega)]

theorem fmtNat_inj {a b : ℕ} (h : fmtNat a = fmtNat b) : a = b := by
  rw [fmtNat_eq, fmtNat_eq] at h
  rw [← (dec_spec a).1, ← (dec_spec b).1, h]

theorem meshName_inj {a b : ℕ} (h : meshName a = meshName b) : a = b := fmtNat_inj (List.append_cancel_left h)

theorem mesh_ne_light (a b : ℕ) : meshName a ≠ lightName b := by
  intro h
  unfold lightName meshName at h
  rw [List.append_assoc] at h
  have h := List.append_cancel_left h
  have hm : '_' ∈ fmtNat a := by rw [h]; exact List.mem_append_right _ (by decide)
  rw [fmtNat_eq] at hm
  exact absurd ((dec_spec a).2.1 _ hm) (by decide)

/-! ### Growth -/

theorem add_find (M : ObjModel) (name n : CStr) (a : Asset) : Mats.find (M.add name a).map n = if name = n then some M.assets.length else Mats.find M.map n := put_find _ _ _ _

theorem add_assets (M : ObjModel) (name : CStr) (a : Asset) : (M.add name a).assets = M.assets ++ [a] := rfl

/-- The materials placed so far are found under their names. -/
def Placed (c : Config) (M : ObjModel) (ms : List (Mat ℝ)) : Prop := ∀ m ∈ ms, ∃ i, Mats.find M.map m.name = some i ∧ M.assets[i]? = some (matAsset c m)

theorem get_snoc {α : Type} (l : List α) (a : α) (i : ℕ) (x : α) (h : l[i]? = some x) : (l ++ [a])[i]? = some x := by
  have : i < l.length := (List.getElem?_eq_some_iff.mp h).1
  rw [List.getElem?_append_left this]; exact h

theorem Placed.add {c : Config} {M : ObjModel} {ms : List (Mat ℝ)} (h : Placed c M ms) (name : CStr) (a : Asset) (hn : ∀ m ∈ ms, name ≠ m.name) : Placed c (M.add name a) ms := by
  intro m hm
  obtain ⟨i, h1, h2⟩ := h m hm
  exact ⟨i, by rw [add_find, if_neg (hn m hm)]; exact h1, get_snoc _ _ _ _ h2⟩

theorem addTexture_placed (c : Config) (M M' : ObjModel) (m : Mat ℝ) (ms : List (Mat ℝ)) (h : Placed c M ms) (hn : ∀ x ∈ ms, x.name ≠ textureId c m.mapKd) (e : addTexture c M m = some M') : Placed c M' ms ∧ M'.groups = M.groups := by
  unfold addTexture at e
  dsimp only at e
  by_cases h0 : m.mapKd = []
  · rw [if_pos h0] at e; cases e; exact ⟨h, rfl⟩
  · rw [if_neg h0] at e
    rcases hf : Mats.find M.map (textureId c m.mapKd) with _ | i
    · rw [hf] at e
      dsimp only at e
      by_cases hc : c.creates (.texture m.mapKd) = true
      · rw [if_pos hc] at e; cases e; exact ⟨h.add _ _ fun x hx => (hn x hx).symm, rfl⟩
      · rw [if_neg hc] at e; cases e
    · rw [hf] at e; cases e; exact ⟨h, rfl⟩

theorem addMaterial_placed (c : Config) (M M' : ObjModel) (m : Mat ℝ) (ms : List (Mat ℝ)) (h : Placed c M ms) (hn : ∀ x ∈ ms, x.name ≠ textureId c m.mapKd) (hd : ∀ x ∈ ms, x.name ≠ m.name) (e : addMaterial c M m = some M') :
    Placed c M' (ms ++ [m]) ∧ M'.groups = M.groups := by
  unfold addMaterial at e
  obtain ⟨M1, e1, e2⟩ := Option.bind_eq_some_iff.mp e
  have h1 : Placed c M1 ms ∧ M1.groups = M.groups := by
    by_cases hb : c.baseMaterial = true
    · rw [if_pos hb] at e1; cases e1; exact ⟨h, rfl⟩
    · rw [if_neg hb] at e1; exact addTexture_placed c M M1 m ms h hn e1
  by_cases hc : c.creates (matAsset c m) = true
  · rw [if_pos hc] at e2
    cases e2
    refine ⟨?_, h1.2⟩
    intro x hx
    rcases List.mem_append.mp hx with hx | hx
    · exact h1.1.add m.name _ (fun y hy => (hd y hy).symm) x hx
    · rw [List.mem_singleton] at hx
      subst hx
      exact ⟨M1.assets.length, by rw [add_find, if_pos rfl], by simp [add_assets]⟩
  · rw [if_neg hc] at e2; cases e2

theorem materials_placed (c : Config) (ms : List (Mat ℝ)) : ∀ (pre : List (Mat ℝ)) (M M' : ObjModel), GoodNames c (pre ++ ms) → Placed c M pre → M.groups = [] → ms.foldlM (addMaterial c) M = some M' → Placed c M' (pre ++ ms) ∧ M'.groups = [] := by
  induction ms with
  | nil => intro pre M M' _ h hg e; cases e; rw [List.append_nil]; exact ⟨h, hg⟩
  | cons m ms ih =>
    intro pre M M' hN h hg e
    rw [List.foldlM_cons] at e
    obtain ⟨M1, e1, e2⟩ := Option.bind_eq_some_iff.mp e
    have hd : ∀ x ∈ pre, x.name ≠ m.name := by
      intro x hx he
      have := hN.distinct
      rw [List.map_append, List.nodup_append] at this
      exact this.2.2 _ (List.mem_map_of_mem hx) _ (List.mem_map_of_mem (List.mem_cons_self)) he
    have hp := addMaterial_placed c M M1 m pre h (fun x hx => hN.texture x (by simp [hx]) m (by simp)) hd e1
    have hN' : GoodNames c ((pre ++ [m]) ++ ms) := by rw [List.append_assoc]; exact hN
    have := ih (pre ++ [m]) M1 M' hN' hp.1 (by rw [hp.2]; exact hg) e2
    rw [List.append_assoc] at this
    exact this

/-! ### Meshes -/

/-- A group whose assets are there. -/
def Resolves (M : ObjModel) (g : Group) (t : Asset × Asset × Option Asset) : Prop :=
  M.assets[g.mesh]? = some t.1 ∧ M.assets[g.material]? = some t.2.1 ∧ (match g.light with | none => t.2.2 = none | some l => ∃ a, M.assets[l]? = some a ∧ t.2.2 = some a)

theorem Resolves.grow {M M' : ObjModel} {g : Group} {t} (h : Resolves M g t) (hp : ∃ r, M'.assets = M.assets ++ r) : Resolves M' g t := by
  obtain ⟨r, hr⟩ := hp
  have gr : ∀ (i : ℕ) (x : Asset), M.assets[i]? = some x → M'.assets[i]? = some x := by
    intro i x hx
    have : i < M.assets.length := (List.getElem?_eq_some_iff.mp hx).1
    rw [hr, List.getElem?_append_left this]; exact hx
  obtain ⟨h1, h2, h3⟩ := h
  refine ⟨gr _ _ h1, gr _ _ h2, ?_⟩
  cases hl : g.light with
  | none => rw [hl] at h3; exact h3
  | some l =>
    rw [hl] at h3
    obtain ⟨a, ha, e⟩ := h3
    exact ⟨a, gr _ _ ha, e⟩

theorem addMesh_spec (c : Config) (ms : List (Mat ℝ)) (hN : GoodNames c ms) (M M' : ObjModel) (fs : List FaceIndex) (m : Mat ℝ) (hm : m ∈ ms) (h : Placed c M ms) (e : addMesh c M fs m = some M') :
    Placed c M' ms ∧ (∃ r, M'.assets = M.assets ++ r) ∧ ∃ g t, M'.groups = M.groups ++ [g] ∧ Resolves M' g t ∧ Triple c (fs, m) t := by
  unfold addMesh at e
  dsimp only at e
  by_cases c1 : c.creates (.mesh fs) = true
  swap
  · rw [if_pos c1] at e; cases e
  rw [if_neg (by simpa using c1)] at e
  have p1 := h.add (meshName M.assets.length) (.mesh fs) (fun x hx => ((hN.mesh x hx _).1).symm)
  obtain ⟨i, f1, a1⟩ := p1 m hm
  by_cases he : emits m.Ke
  · rw [if_pos he] at e
    by_cases c2 : c.creates (.light m.Ke (meshName M.assets.length)) = true
    swap
    · rw [if_pos c2] at e; cases e
    rw [if_neg (by simpa using c2)] at e
    have p2 := p1.add (lightName M.assets.length) (.light m.Ke (meshName M.assets.length)) (fun x hx => ((hN.mesh x hx _).2).symm)
    obtain ⟨i, f2, a2⟩ := p2 m hm
    have fm : Mats.find ((M.add (meshName M.assets.length) (.mesh fs)).add (lightName M.assets.length) (.light m.Ke (meshName M.assets.length))).map (meshName M.assets.length) = some M.assets.length := by
      rw [add_find, if_neg (mesh_ne_light _ _).symm, add_find, if_pos rfl]
    simp only [lookup, fm, f2] at e
    cases e
    refine ⟨p2, ⟨[.mesh fs, .light m.Ke (meshName M.assets.length)], by simp [add_assets]⟩, ⟨M.assets.length, i, some (M.add (meshName M.assets.length) (.mesh fs)).assets.length⟩,
      (.mesh fs, matAsset c m, some (.light m.Ke (meshName M.assets.length))), rfl, ⟨?_, a2, _, ?_, rfl⟩, rfl, rfl, Or.inl ⟨he, _, rfl⟩⟩
    · simp [add_assets]
    · simp [add_assets]
  · rw [if_neg he] at e
    have fm : Mats.find (M.add (meshName M.assets.length) (.mesh fs)).map (meshName M.assets.length) = some M.assets.length := by
      rw [add_find, if_pos rfl]
    simp only [lookup, fm, f1] at e
    cases e
    refine ⟨p1, ⟨[.mesh fs], rfl⟩, ⟨M.assets.length, i, none⟩, (.mesh fs, matAsset c m, none), rfl, ⟨?_, a1, rfl⟩, rfl, rfl, Or.inr ⟨he, rfl⟩⟩
    simp [add_assets]

theorem meshes_spec (c : Config) (ms : List (Mat ℝ)) (hN : GoodNames c ms) (l : List (List FaceIndex × Mat ℝ)) : ∀ (M M' : ObjModel), (∀ e ∈ l, e.2 ∈ ms) → Placed c M ms → l.foldlM (fun M e => addMesh c M e.1 e.2) M = some M' →
    (∃ r, M'.assets = M.assets ++ r) ∧ ∃ gs ts, M'.groups = M.groups ++ gs ∧ List.Forall₂ (Resolves M') gs ts ∧ List.Forall₂ (Triple c) l ts := by
  induction l with
  | nil => intro M M' _ _ e; cases e; exact ⟨⟨[], by simp⟩, [], [], by simp, List.Forall₂.nil, List.Forall₂.nil⟩
  | cons x l ih =>
    intro M M' hl h e
    rw [List.foldlM_cons] at e
    obtain ⟨M1, e1, e2⟩ := Option.bind_eq_some_iff.mp e
    obtain ⟨p, ⟨r, hr⟩, g, t, hg, hres, htr⟩ := addMesh_spec c ms hN M M1 x.1 x.2 (hl x (by simp)) h e1
    obtain ⟨⟨r', hr'⟩, gs, ts, hg', h1, h2⟩ := ih M1 M' (fun y hy => hl y (by simp [hy])) p e2
    refine ⟨⟨r ++ r', by rw [hr', hr, List.append_assoc]⟩, g :: gs, t :: ts, by rw [hg', hg]; simp, List.Forall₂.cons (hres.grow ⟨r', hr'⟩) h1, List.Forall₂.cons htr h2⟩

theorem primitives_of (M : ObjModel) (gs : List Group) (ts : List (Asset × Asset × Option Asset)) (h : List.Forall₂ (Resolves M) gs ts) :
    (gs.mapM fun g => do
      let mesh ← M.assets[g.mesh]?
      let mat ← M.assets[g.material]?
      match g.light with
      | none => pure (mesh, mat, none)
      | some l => do
        let light ← M.assets[l]?
        pure (mesh, mat, some light)) = some ts := by
  induction h with
  | nil => rfl
  | cons h _ ih =>
    rename_i g t _ _ _
    rw [List.mapM_cons, ih]
    obtain ⟨h1, h2, h3⟩ := h
    obtain ⟨t1, t2, t3⟩ := t
    cases hl : g.light with
    | none =>
      rw [hl] at h3
      simp only at h1 h2 h3
      simp [h1, h2, h3]
    | some l =>
      rw [hl] at h3
      obtain ⟨a, ha, e⟩ := h3
      simp only at h1 h2 e
      simp [h1, h2, ha, e]

/-! ### C62 -/

/-- For every file whose material names cannot be confused: the model creates one primitive per mesh of the file, in order, each with the faces of the mesh, the material the file gives it, and a light exactly when this material emits. Missing: files with materials of the same name, or named like a mesh (C62_negation_duplicate, C62_negation_mesh_name). -/
theorem C62_triples_partial (c : Config) (L : Loaded ℝ) (hN : GoodNames c L.materials) (hL : ∀ e ∈ L.meshes, e.2 ∈ L.materials) (M : ObjModel) (h : construct c L = some M) :
    ∃ ts, primitives M = some ts ∧ List.Forall₂ (Triple c) L.meshes ts := by
  unfold construct at h
  obtain ⟨M1, e1, e2⟩ := Option.bind_eq_some_iff.mp h
  obtain ⟨p, hg⟩ := materials_placed c L.materials [] {} M1 (by simpa using hN) (by intro m hm; cases hm) rfl e1
  rw [List.nil_append] at p
  obtain ⟨_, gs, ts, hgs, h1, h2⟩ := meshes_spec c L.materials hN L.meshes M1 M hL p e2
  refine ⟨ts, ?_, h2⟩
  unfold primitives
  rw [hgs, hg, List.nil_append]
  exact primitives_of M gs ts h1

/-- The meshes of a file that was loaded have materials of the file: the hypothesis of the theorem above. -/
theorem C62_loaded (atof : CStr → ℝ) (files : CStr → Option (List Char)) (text : List Char) (L : Loaded ℝ) (h : load atof files text = .ok L) : ∀ e ∈ L.meshes, e.2 ∈ L.materials := by
  obtain ⟨s, _, h2⟩ := load_ok atof files text L h
  unfold finish at h2
  dsimp only at h2
  rcases hm : s.prims.mapM (fun p => ((if s.mats.ms = [] then [defaultMat] else s.mats.ms)[p.material]?).map (fun m => (p.fs, m))) with _ | meshes
  · rw [hm] at h2; cases h2
  · rw [hm] at h2
    cases h2
    intro e he
    obtain ⟨n, hn, rfl⟩ := List.mem_iff_getElem.mp he
    have key : ∀ (prims : List Prim) (meshes : List (List FaceIndex × Mat ℝ)) (ms : List (Mat ℝ)), prims.mapM (fun p => (ms[p.material]?).map (fun m => (p.fs, m))) = some meshes → ∀ e ∈ meshes, e.2 ∈ ms := by
      intro prims
      induction prims with
      | nil => intro meshes ms h e he; cases h; cases he
      | cons p r ih =>
        intro meshes ms h e he
        rw [List.mapM_cons] at h
        obtain ⟨a, h1, h⟩ := Option.bind_eq_some_iff.mp h
        obtain ⟨b, h2, h⟩ := Option.bind_eq_some_iff.mp h
        cases h
        rcases List.mem_cons.mp he with rfl | he
        · obtain ⟨m, hm, rfl⟩ := Option.map_eq_some_iff.mp h1
          exact List.mem_of_getElem? hm
        · exact ih b ms h2 e he
    exact key _ _ _ hm _ he

/-! ### Textures -/

/-- Every name in the map is that of a material placed so far or of a texture, and every texture is found under its id. -/
structure Tex (c : Config) (M : ObjModel) (pre : List (Mat ℝ)) : Prop where
  id : ∀ (i : ℕ) (p : CStr), M.assets[i]? = some (Asset.texture p) → Mats.find M.map (textureId c p) = some i
  keys : ∀ n i, Mats.find M.map n = some i → (∃ m ∈ pre, n = m.name) ∨ ∃ p, n = textureId c p ∧ M.assets[i]? = some (Asset.texture p)
  from_file : ∀ (i : ℕ) (p : CStr), M.assets[i]? = some (Asset.texture p) → ∃ m ∈ pre, m.mapKd = p ∧ p ≠ []
  found : ∀ m ∈ pre, m.mapKd ≠ [] → c.baseMaterial = false → ∃ i p, Mats.find M.map (textureId c m.mapKd) = some i ∧ M.assets[i]? = some (Asset.texture p) ∧ textureId c p = textureId c m.mapKd

theorem not_texture (c : Config) (m : Mat ℝ) (p : CStr) : matAsset c m ≠ .texture p := by
  unfold matAsset
  dsimp only
  split_ifs <;> simp

theorem snoc_get {α : Type} (l : List α) (a x : α) (i : ℕ) (h : (l ++ [a])[i]? = some x) : l[i]? = some x ∨ (i = l.length ∧ a = x) := by
  rcases Nat.lt_trichotomy i l.length with hl | rfl | hl
  · left; rwa [List.getElem?_append_left hl] at h
  · right; simpa using h
  · rw [List.getElem?_eq_none (by simp; omega)] at h; cases h

theorem addTexture_tex (c : Config) (M M1 : ObjModel) (m : Mat ℝ) (pre : List (Mat ℝ)) (hN : ∀ x ∈ pre, x.name ≠ textureId c m.mapKd) (h : Tex c M pre) (hb : c.baseMaterial = false) (e : addTexture c M m = some M1) :
    (∀ (i : ℕ) (p : CStr), M1.assets[i]? = some (Asset.texture p) → Mats.find M1.map (textureId c p) = some i) ∧
    (∀ n i, Mats.find M1.map n = some i → (∃ m ∈ pre, n = m.name) ∨ ∃ p, n = textureId c p ∧ M1.assets[i]? = some (Asset.texture p)) ∧
    (∀ (i : ℕ) (p : CStr), M1.assets[i]? = some (Asset.texture p) → ∃ x ∈ pre ++ [m], x.mapKd = p ∧ p ≠ []) ∧
    (∀ x ∈ pre ++ [m], x.mapKd ≠ [] → ∃ i p, Mats.find M1.map (textureId c x.mapKd) = some i ∧ M1.assets[i]? = some (Asset.texture p) ∧ textureId c p = textureId c x.mapKd) := by
  unfold addTexture at e
  dsimp only at e
  have old : ∀ (i : ℕ) (p : CStr), M.assets[i]? = some (Asset.texture p) → ∃ x ∈ pre ++ [m], x.mapKd = p ∧ p ≠ [] := fun i p hi => by
    obtain ⟨x, hx, h1⟩ := h.from_file i p hi
    exact ⟨x, by simp [hx], h1⟩
  by_cases h0 : m.mapKd = []
  · rw [if_pos h0] at e; cases e
    refine ⟨h.id, h.keys, old, ?_⟩
    intro x hx hne
    rcases List.mem_append.mp hx with hx | hx
    · exact h.found x hx hne hb
    · rw [List.mem_singleton] at hx; subst hx; exact absurd h0 hne
  · rw [if_neg h0] at e
    rcases hf : Mats.find M.map (textureId c m.mapKd) with _ | i
    · rw [hf] at e
      dsimp only at e
      by_cases hc : c.creates (.texture m.mapKd) = true
      swap
      · rw [if_neg hc] at e; cases e
      rw [if_pos hc] at e; cases e
      have hnone : ∀ (i : ℕ) (p : CStr), M.assets[i]? = some (Asset.texture p) → textureId c m.mapKd ≠ textureId c p := by
        intro i p hi he
        have := h.id i p hi
        rw [← he, hf] at this; cases this
      refine ⟨?_, ?_, ?_, ?_⟩
      · intro i p hi
        rcases snoc_get _ _ _ _ hi with hi | ⟨rfl, he⟩
        · rw [add_find, if_neg (hnone i p hi)]; exact h.id i p hi
        · cases he; rw [add_find, if_pos rfl]
      · intro n i hn
        rw [add_find] at hn
        by_cases hnn : textureId c m.mapKd = n
        · rw [if_pos hnn] at hn
          cases hn
          exact Or.inr ⟨m.mapKd, hnn.symm, by simp [add_assets]⟩
        · rw [if_neg hnn] at hn
          rcases h.keys n i hn with h1 | ⟨p, h1, h2⟩
          · exact Or.inl h1
          · exact Or.inr ⟨p, h1, get_snoc _ _ _ _ h2⟩
      · intro i p hi
        rcases snoc_get _ _ _ _ hi with hi | ⟨rfl, he⟩
        · exact old i p hi
        · cases he; exact ⟨m, by simp, rfl, h0⟩
      · intro x hx hne
        rcases List.mem_append.mp hx with hx | hx
        · obtain ⟨i, p, h1, h2, h3⟩ := h.found x hx hne hb
          refine ⟨i, p, ?_, get_snoc _ _ _ _ h2, h3⟩
          rw [add_find, if_neg]; exact h1
          rw [← h3]; exact hnone i p h2
        · rw [List.mem_singleton] at hx; subst hx
          exact ⟨_, x.mapKd, by rw [add_find, if_pos rfl], by simp [add_assets], rfl⟩
    · rw [hf] at e; cases e
      refine ⟨h.id, h.keys, old, ?_⟩
      intro x hx hne
      rcases List.mem_append.mp hx with hx | hx
      · exact h.found x hx hne hb
      · rw [List.mem_singleton] at hx; subst hx
        rcases h.keys _ _ hf with ⟨y, hy, h1⟩ | ⟨p, h1, h2⟩
        · exact absurd h1.symm (hN y hy)
        · exact ⟨i, p, hf, h2, h1.symm⟩

theorem addMaterial_tex (c : Config) (M M' : ObjModel) (m : Mat ℝ) (pre all : List (Mat ℝ)) (hN : GoodNames c all) (hp : ∀ x ∈ pre, x ∈ all) (hm : m ∈ all) (h : Tex c M pre) (e : addMaterial c M m = some M') : Tex c M' (pre ++ [m]) := by
  unfold addMaterial at e
  obtain ⟨M1, e1, e2⟩ := Option.bind_eq_some_iff.mp e
  have hmid : (∀ (i : ℕ) (p : CStr), M1.assets[i]? = some (Asset.texture p) → Mats.find M1.map (textureId c p) = some i) ∧
    (∀ n i, Mats.find M1.map n = some i → (∃ m ∈ pre, n = m.name) ∨ ∃ p, n = textureId c p ∧ M1.assets[i]? = some (Asset.texture p)) ∧
    (∀ (i : ℕ) (p : CStr), M1.assets[i]? = some (Asset.texture p) → ∃ x ∈ pre ++ [m], x.mapKd = p ∧ p ≠ []) ∧
    (c.baseMaterial = false → ∀ x ∈ pre ++ [m], x.mapKd ≠ [] → ∃ i p, Mats.find M1.map (textureId c x.mapKd) = some i ∧ M1.assets[i]? = some (Asset.texture p) ∧ textureId c p = textureId c x.mapKd) := by
    by_cases hb : c.baseMaterial = true
    · rw [if_pos hb] at e1; cases e1
      refine ⟨h.id, h.keys, fun i p hi => ?_, fun hf => by rw [hb] at hf; cases hf⟩
      obtain ⟨x, hx, h1⟩ := h.from_file i p hi
      exact ⟨x, by simp [hx], h1⟩
    · rw [if_neg hb] at e1
      have hb' : c.baseMaterial = false := by simpa using hb
      obtain ⟨a, b, d, f⟩ := addTexture_tex c M M1 m pre (fun x hx => hN.texture x (hp x hx) m hm) h hb' e1
      exact ⟨a, b, d, fun _ => f⟩
  obtain ⟨a, b, d, f⟩ := hmid
  by_cases hc : c.creates (matAsset c m) = true
  swap
  · rw [if_neg hc] at e2; cases e2
  rw [if_pos hc] at e2; cases e2
  have ne : ∀ (i : ℕ) (p : CStr), M1.assets[i]? = some (Asset.texture p) → m.name ≠ textureId c p := by
    intro i p hi
    obtain ⟨x, hx, h1, _⟩ := d i p hi
    rw [← h1]
    refine hN.texture m hm x ?_
    rcases List.mem_append.mp hx with hx | hx
    · exact hp x hx
    · rw [List.mem_singleton] at hx; rw [hx]; exact hm
  have back : ∀ (i : ℕ) (p : CStr), (M1.add m.name (matAsset c m)).assets[i]? = some (Asset.texture p) → M1.assets[i]? = some (Asset.texture p) := by
    intro i p hi
    rcases snoc_get _ _ _ _ hi with hi | ⟨_, he⟩
    · exact hi
    · exact absurd he (not_texture c m p)
  refine ⟨?_, ?_, fun i p hi => d i p (back i p hi), ?_⟩
  · intro i p hi
    have := back i p hi
    rw [add_find, if_neg (ne i p this)]; exact a i p this
  · intro n i hn
    rw [add_find] at hn
    by_cases hnn : m.name = n
    · exact Or.inl ⟨m, by simp, hnn.symm⟩
    · rw [if_neg hnn] at hn
      rcases b n i hn with ⟨x, hx, h1⟩ | ⟨p, h1, h2⟩
      · exact Or.inl ⟨x, by simp [hx], h1⟩
      · exact Or.inr ⟨p, h1, get_snoc _ _ _ _ h2⟩
  · intro x hx hne hb
    obtain ⟨i, p, h1, h2, h3⟩ := f hb x hx hne
    exact ⟨i, p, by rw [add_find, if_neg (by rw [← h3]; exact ne i p h2)]; exact h1, get_snoc _ _ _ _ h2, h3⟩

theorem materials_tex (c : Config) (all ms : List (Mat ℝ)) (hN : GoodNames c all) : ∀ (pre : List (Mat ℝ)) (M M' : ObjModel), (∀ x ∈ pre ++ ms, x ∈ all) → Tex c M pre → ms.foldlM (addMaterial c) M = some M' → Tex c M' (pre ++ ms) := by
  induction ms with
  | nil => intro pre M M' _ h e; cases e; rw [List.append_nil]; exact h
  | cons m ms ih =>
    intro pre M M' ha h e
    rw [List.foldlM_cons] at e
    obtain ⟨M1, e1, e2⟩ := Option.bind_eq_some_iff.mp e
    have := ih (pre ++ [m]) M1 M' (by simpa using ha) (addMaterial_tex c M M1 m pre all hN (fun x hx => ha x (by simp [hx])) (ha m (by simp)) h e1) e2
    rwa [List.append_assoc] at this

theorem texture_ne_mesh (c : Config) (f : CStr) (n : ℕ) : meshName n ≠ textureId c f ∧ lightName n ≠ textureId c f := by
  have hm : ∀ r, "mesh_".toList ++ r ≠ "texture_".toList ++ c.stem f := by
    intro r h
    have h1 := congrArg List.head? h
    have h1 : some 'm' = some 't' := h1
    exact absurd h1 (by decide)
  exact ⟨hm _, by unfold lightName meshName; rw [List.append_assoc]; exact hm _⟩

/-- Meshes and lights leave the textures and their entries alone. -/
theorem addMesh_keeps (c : Config) (ms : List (Mat ℝ)) (hN : GoodNames c ms) (M M' : ObjModel) (fs : List FaceIndex) (m : Mat ℝ) (hm : m ∈ ms) (h : Placed c M ms) (e : addMesh c M fs m = some M') :
    (∀ f, Mats.find M'.map (textureId c f) = Mats.find M.map (textureId c f)) ∧ ∀ (i : ℕ) (p : CStr), M'.assets[i]? = some (Asset.texture p) → M.assets[i]? = some (Asset.texture p) := by
  unfold addMesh at e
  dsimp only at e
  by_cases c1 : c.creates (.mesh fs) = true
  swap
  · rw [if_pos c1] at e; cases e
  rw [if_neg (by simpa using c1)] at e
  have p1 := h.add (meshName M.assets.length) (.mesh fs) (fun x hx => ((hN.mesh x hx _).1).symm)
  obtain ⟨i, f1, a1⟩ := p1 m hm
  by_cases he : emits m.Ke
  · rw [if_pos he] at e
    by_cases c2 : c.creates (.light m.Ke (meshName M.assets.length)) = true
    swap
    · rw [if_pos c2] at e; cases e
    rw [if_neg (by simpa using c2)] at e
    have p2 := p1.add (lightName M.assets.length) (.light m.Ke (meshName M.assets.length)) (fun x hx => ((hN.mesh x hx _).2).symm)
    obtain ⟨i, f2, a2⟩ := p2 m hm
    have fm : Mats.find ((M.add (meshName M.assets.length) (.mesh fs)).add (lightName M.assets.length) (.light m.Ke (meshName M.assets.length))).map (meshName M.assets.length) = some M.assets.length := by
      rw [add_find, if_neg (mesh_ne_light _ _).symm, add_find, if_pos rfl]
    simp only [lookup, fm, f2] at e
    cases e
    refine ⟨fun f => ?_, fun i p hi => ?_⟩
    · show Mats.find ((M.add (meshName M.assets.length) (.mesh fs)).add (lightName M.assets.length) (.light m.Ke (meshName M.assets.length))).map (textureId c f) = _
      rw [add_find, if_neg (texture_ne_mesh c f _).2, add_find, if_neg (texture_ne_mesh c f _).1]
    · have hi : ((M.assets ++ [Asset.mesh fs]) ++ [Asset.light m.Ke (meshName M.assets.length)])[i]? = some (Asset.texture p) := hi
      rcases snoc_get _ _ _ _ hi with hi | ⟨_, he⟩
      · rcases snoc_get _ _ _ _ hi with hi | ⟨_, he⟩
        · exact hi
        · cases he
      · cases he
  · rw [if_neg he] at e
    have fm : Mats.find (M.add (meshName M.assets.length) (.mesh fs)).map (meshName M.assets.length) = some M.assets.length := by
      rw [add_find, if_pos rfl]
    simp only [lookup, fm, f1] at e
    cases e
    refine ⟨fun f => ?_, fun i p hi => ?_⟩
    · show Mats.find (M.add (meshName M.assets.length) (.mesh fs)).map (textureId c f) = _
      rw [add_find, if_neg (texture_ne_mesh c f _).1]
    · have hi : (M.assets ++ [Asset.mesh fs])[i]? = some (Asset.texture p) := hi
      rcases snoc_get _ _ _ _ hi with hi | ⟨_, he⟩
      · exact hi
      · cases he

theorem meshes_keep (c : Config) (ms : List (Mat ℝ)) (hN : GoodNames c ms) (l : List (List FaceIndex × Mat ℝ)) : ∀ (M M' : ObjModel), (∀ e ∈ l, e.2 ∈ ms) → Placed c M ms → l.foldlM (fun M e => addMesh c M e.1 e.2) M = some M' →
    (∀ f, Mats.find M'.map (textureId c f) = Mats.find M.map (textureId c f)) ∧ ∀ (i : ℕ) (p : CStr), M'.assets[i]? = some (Asset.texture p) → M.assets[i]? = some (Asset.texture p) := by
  induction l with
  | nil => intro M M' _ _ e; cases e; exact ⟨fun _ => rfl, fun _ _ h => h⟩
  | cons x l ih =>
    intro M M' hl h e
    rw [List.foldlM_cons] at e
    obtain ⟨M1, e1, e2⟩ := Option.bind_eq_some_iff.mp e
    obtain ⟨p, _, _⟩ := addMesh_spec c ms hN M M1 x.1 x.2 (hl x (by simp)) h e1
    obtain ⟨a, b⟩ := addMesh_keeps c ms hN M M1 x.1 x.2 (hl x (by simp)) h e1
    obtain ⟨a', b'⟩ := ih M1 M' (fun y hy => hl y (by simp [hy])) p e2
    exact ⟨fun f => (a' f).trans (a f), fun i p hi => b i p (b' i p hi)⟩

/-- Textures: no two texture assets have files with the same stem, so no file is loaded twice; every texture is a file some material names; and when different files have different stems, the texture reference of every material leads to the file the material names. Missing: different files with the same stem (C62_negation_stem). -/
theorem C62_textures_partial (c : Config) (L : Loaded ℝ) (hN : GoodNames c L.materials) (hL : ∀ e ∈ L.meshes, e.2 ∈ L.materials) (M : ObjModel) (h : construct c L = some M) :
    (∀ (i j : ℕ) (p q : CStr), M.assets[i]? = some (Asset.texture p) → M.assets[j]? = some (Asset.texture q) → c.stem p = c.stem q → i = j) ∧
    (∀ (i : ℕ) (p : CStr), M.assets[i]? = some (Asset.texture p) → ∃ m ∈ L.materials, m.mapKd = p ∧ p ≠ []) ∧
    (c.baseMaterial = false → (∀ m ∈ L.materials, ∀ m' ∈ L.materials, c.stem m.mapKd = c.stem m'.mapKd → m.mapKd = m'.mapKd) → ∀ m ∈ L.materials, m.mapKd ≠ [] →
      ∃ i, Mats.find M.map (textureId c m.mapKd) = some i ∧ M.assets[i]? = some (Asset.texture m.mapKd)) := by
  unfold construct at h
  obtain ⟨M1, e1, e2⟩ := Option.bind_eq_some_iff.mp h
  obtain ⟨p, _⟩ := materials_placed c L.materials [] {} M1 (by simpa using hN) (by intro m hm; cases hm) rfl e1
  rw [List.nil_append] at p
  have ht := materials_tex c L.materials L.materials hN [] {} M1 (by simp) ⟨by simp, fun n i h => absurd h (by simp [Mats.find]), by simp, fun m hm => absurd hm (by simp)⟩ e1
  rw [List.nil_append] at ht
  obtain ⟨⟨r, hr⟩, _⟩ := meshes_spec c L.materials hN L.meshes M1 M hL p e2
  obtain ⟨k1, k2⟩ := meshes_keep c L.materials hN L.meshes M1 M hL p e2
  refine ⟨?_, fun i p hi => ht.from_file i p (k2 i p hi), ?_⟩
  · intro i j p q hi hj hs
    have h1 := ht.id i p (k2 i p hi)
    have h2 := ht.id j q (k2 j q hj)
    have : textureId c p = textureId c q := by unfold textureId; rw [hs]
    rw [this, h2] at h1
    exact (Option.some.inj h1).symm
  · intro hb hinj m hm hne
    obtain ⟨i, p, h1, h2, h3⟩ := ht.found m hm hne hb
    obtain ⟨m', hm', h4, _⟩ := ht.from_file i p h2
    have hst : c.stem p = c.stem m.mapKd := List.append_cancel_left h3
    have : p = m.mapKd := by rw [← h4]; exact hinj m' hm' m hm (by rw [h4]; exact hst)
    subst this
    refine ⟨i, by rw [k1]; exact h1, ?_⟩
    have : i < M1.assets.length := (List.getElem?_eq_some_iff.mp h2).1
    rw [hr, List.getElem?_append_left this]; exact h2

/-- Construction fails only when some asset cannot be created. -/
theorem C62_succeeds (c : Config) (L : Loaded ℝ) (hc : ∀ a, c.creates a = true) : ∃ M, construct c L = some M := by
  have h1 : ∀ M m, ∃ M', addMaterial c M m = some M' := by
    intro M m
    have ht : ∃ M', addTexture c M m = some M' := by
      unfold addTexture
      dsimp only
      by_cases hk : m.mapKd = []
      · rw [if_pos hk]; exact ⟨_, rfl⟩
      · rw [if_neg hk]
        split
        · exact ⟨_, rfl⟩
        · rw [if_pos (hc _)]; exact ⟨_, rfl⟩
    obtain ⟨Mt, e⟩ := ht
    unfold addMaterial
    by_cases hb : c.baseMaterial = true
    · rw [if_pos hb, Option.bind_some, if_pos (hc _)]; exact ⟨_, rfl⟩
    · rw [if_neg hb, e, Option.bind_some, if_pos (hc _)]; exact ⟨_, rfl⟩
  have h2 : ∀ M fs m, ∃ M', addMesh c M fs m = some M' := by
    intro M fs m
    unfold addMesh
    dsimp only
    rw [if_neg (by simp [hc])]
    by_cases he : emits m.Ke
    · rw [if_pos he, if_neg (by simp [hc])]; exact ⟨_, rfl⟩
    · rw [if_neg he]; exact ⟨_, rfl⟩
  have f1 : ∀ (ms : List (Mat ℝ)) (M : ObjModel), ∃ M', ms.foldlM (addMaterial c) M = some M' := by
    intro ms
    induction ms with
    | nil => intro M; exact ⟨M, rfl⟩
    | cons m ms ih =>
      intro M
      obtain ⟨M1, e⟩ := h1 M m
      obtain ⟨M2, e2⟩ := ih M1
      exact ⟨M2, by rw [List.foldlM_cons, e]; exact e2⟩
  have f2 : ∀ (ms : List (List FaceIndex × Mat ℝ)) (M : ObjModel), ∃ M', ms.foldlM (fun M e => addMesh c M e.1 e.2) M = some M' := by
    intro ms
    induction ms with
    | nil => intro M; exact ⟨M, rfl⟩
    | cons m ms ih =>
      intro M
      obtain ⟨M1, e⟩ := h2 M m.1 m.2
      obtain ⟨M2, e2⟩ := ih M1
      exact ⟨M2, by rw [List.foldlM_cons, e]; exact e2⟩
  obtain ⟨M1, e1⟩ := f1 L.materials {}
  obtain ⟨M2, e2⟩ := f2 L.meshes M1
  exact ⟨M2, by unfold construct; rw [e1]; exact e2⟩

/-! ### Roughness -/

/-- The roughness given to the glossy part is positive, and the same in both directions without anisotropy. -/
theorem C62_roughness (Ns an : ℝ) : (∀ a, (roughness Ns an).1 = some a → 0 < a) ∧ (∀ a, (roughness Ns an).2 = some a → 0 < a) ∧ (Ns ≠ -2 → (roughness Ns 0).1 = (roughness Ns 0).2 ∧ (roughness Ns 0).1.isSome) := by
  have hpos : ∀ x : ℝ, 0 < max (1 / 1000) x := fun x => lt_of_lt_of_le (by norm_num) (le_max_left _ _)
  refine ⟨?_, ?_, ?_⟩
  · intro a h
    unfold roughness at h
    split_ifs at h <;> simp at h
    obtain ⟨_, rfl⟩ := h
    simp
  · intro a h
    unfold roughness at h
    split_ifs at h <;> simp at h
    subst h
    simp
  · intro hN
    have h2 : 2 + Ns ≠ 0 := fun h => hN (by linarith)
    unfold roughness
    rw [if_neg h2]
    simp

/-- The roughness falls as the shininess Ns grows, never exceeds 1 without anisotropy, and anisotropy makes the first direction rougher than the second. -/
theorem C62_roughness_order (Ns Ns' an : ℝ) (h0 : 0 ≤ Ns) (hN : Ns ≤ Ns') (ha : 0 ≤ an) (ha1 : an ≤ 1) :
    ∃ ax ay ax' ay', roughness Ns an = (some ax, some ay) ∧ roughness Ns' an = (some ax', some ay') ∧ ax' ≤ ax ∧ ay' ≤ ay ∧ ay ≤ ax ∧ ay ≤ 1 := by
  have h2 : 2 + Ns ≠ 0 := by linarith
  have h2' : 2 + Ns' ≠ 0 := by linarith
  have hp : 0 < max 0 (1 - an * 0.9) := lt_max_of_lt_right (by nlinarith)
  have hs : 0 < Real.sqrt (max 0 (1 - an * 0.9)) := Real.sqrt_pos.mpr hp
  have hs1 : Real.sqrt (max 0 (1 - an * 0.9)) ≤ 1 := by
    exact (Real.sqrt_le_sqrt (max_le (by norm_num) (by nlinarith) : max 0 (1 - an * 0.9) ≤ 1)).trans_eq Real.sqrt_one
  refine ⟨_, _, _, _, (by unfold roughness; rw [if_neg h2]; simp only [if_neg hs.ne']; rfl), (by unfold roughness; rw [if_neg h2']; simp only [if_neg hs.ne']; rfl), ?_, ?_, ?_, ?_⟩
  all_goals generalize Real.sqrt (max 0 (1 - an * 0.9)) = q at *
  all_goals
    have hr : 2 / (2 + Ns') ≤ 2 / (2 + Ns) := div_le_div_of_nonneg_left (by norm_num) (by linarith) (by linarith)
    have hr0 : 0 ≤ 2 / (2 + Ns) := by positivity
    have hr1 : 2 / (2 + Ns) ≤ 1 := by rw [div_le_one (by linarith)]; linarith
  · exact max_le_max le_rfl (div_le_div_of_nonneg_right hr hs.le)
  · exact max_le_max le_rfl (mul_le_mul_of_nonneg_right hr hs.le)
  · refine max_le_max le_rfl ?_
    rw [le_div_iff₀ hs]
    nlinarith [mul_nonneg hr0 hs.le, mul_le_mul hs1 hs1 hs.le zero_le_one]
  · exact max_le (by norm_num) (by nlinarith)

/-- Non-vacuity: shininess 10 is smoother than 1. -/
example : ∃ ax ay ax' ay', roughness 1 (1 / 2) = (some ax, some ay) ∧ roughness 10 (1 / 2) = (some ax', some ay') ∧ ax' ≤ ax ∧ ay' ≤ ay ∧ ay ≤ ax ∧ ay ≤ 1 :=
  C62_roughness_order 1 10 (1 / 2) (by norm_num) (by norm_num) (by norm_num) (by norm_num)

/-- What a user expects of an ordinary material (illum other than 5 and 7): the mixture gets Kd, Ks, the texture of map_Kd when there is
    one, and along its two axes the two roughnesses of the exponent Ns and the anisotropy. Mirrors and glass go by illum. -/
theorem C62_material (c : Config) (m : Mat ℝ) (hb : c.baseMaterial = false) :
    (m.illum ≠ 5 → m.illum ≠ 7 → ∃ t, matAsset c m = .mixture m.Kd t m.Ks (roughness m.Ns m.an).1 (roughness m.Ns m.an).2 c.skipSpecular ∧ (t = none ↔ m.mapKd = []) ∧ (∀ x, t = some x → x = textureId c m.mapKd)) ∧
    (c.skipSpecular = false → m.illum = 7 → matAsset c m = .glass m.Ni) ∧ (c.skipSpecular = false → m.illum = 5 → matAsset c m = .mirror) := by
  refine ⟨fun h5 h7 => ⟨if m.mapKd = [] then none else some (textureId c m.mapKd), ?_, ?_, ?_⟩, fun hs h7 => ?_, fun hs h5 => ?_⟩
  · unfold matAsset; rw [hb, if_neg (by simp), if_neg (by simp [h5, h7])]
  · by_cases h : m.mapKd = [] <;> simp [h]
  · intro x hx
    by_cases h : m.mapKd = []
    · simp [h] at hx
    · simp [h] at hx; exact hx.symm
  · unfold matAsset; simp [hb, hs, h7]
  · unfold matAsset; simp [hb, hs, h5]

/-- The two axes differ when the material is anisotropic: Ns = 0, aniso = 1 gives (√10, 1/√10)-like values, so swapping them would show. -/
example : ∃ ax ay, roughness 0 1 = (some ax, some ay) ∧ ay < ax := by
  obtain ⟨ax, ay, _, _, h, _, _, _, _, _⟩ := C62_roughness_order 0 0 1 le_rfl le_rfl zero_le_one le_rfl
  refine ⟨ax, ay, h, ?_⟩
  have hq : Real.sqrt (max 0 (1 - (1:ℝ) * 0.9)) < 1 := by
    rw [show max (0:ℝ) (1 - 1 * 0.9) = 0.1 by norm_num]
    rw [Real.sqrt_lt' one_pos]; norm_num
  have hq0 : 0 < Real.sqrt (max 0 (1 - (1:ℝ) * 0.9)) := Real.sqrt_pos.mpr (lt_max_of_lt_right (by norm_num))
  unfold roughness at h
  rw [if_neg (by norm_num)] at h
  simp only [if_neg hq0.ne', Prod.mk.injEq, Option.some.injEq] at h
  obtain ⟨rfl, rfl⟩ := h
  have h1 : Real.sqrt (max 0 (1 - (1:ℝ) * 0.9)) < 1 / Real.sqrt (max 0 (1 - (1:ℝ) * 0.9)) := by
    rw [lt_div_iff₀ hq0]; nlinarith
  have : (2:ℝ) / (2 + 0) = 1 := by norm_num
  rw [this, one_mul]
  have h3 : (1:ℝ) < 1 / Real.sqrt (max 0 (1 - (1:ℝ) * 0.9)) := by rw [lt_div_iff₀ hq0]; linarith
  exact max_lt (lt_max_of_lt_right (by linarith)) (lt_max_of_lt_right h1)

/-! ### Where the property fails -/

/-- Everything can be created. -/
def plain (stem : CStr → CStr) : Config := ⟨false, false, stem, fun _ => true⟩

theorem plain_creates (stem : CStr → CStr) (a : Asset) : (plain stem).creates a = true := rfl

/-- Two materials of the same name: a mesh with the first one gets the second one. -/
theorem C62_negation_duplicate (stem : CStr → CStr) (a b : Mat ℝ) (fs : List FaceIndex) (hn : a.name = b.name) (hm : a.name ≠ meshName 2) (ha : a.mapKd = []) (hb : b.mapKd = []) (hK : ¬ emits a.Ke) :
    ((construct (plain stem) { geo := {}, materials := [a, b], meshes := [(fs, a)] }).bind primitives) = some [(.mesh fs, matAsset (plain stem) b, none)] := by
  have hm' : b.name ≠ meshName 2 := hn ▸ hm
  simp [construct, addMaterial, addTexture, addMesh, plain, ha, hb, hK, ObjModel.add, lookup, put_find, hn, hm'.symm, primitives]

/-- A material whose name is that of a mesh to come: the primitive gets the mesh as its material. -/
theorem C62_negation_mesh_name (stem : CStr → CStr) (a : Mat ℝ) (fs : List FaceIndex) (hn : a.name = meshName 1) (ha : a.mapKd = []) (hK : ¬ emits a.Ke) :
    ((construct (plain stem) { geo := {}, materials := [a], meshes := [(fs, a)] }).bind primitives) = some [(.mesh fs, .mesh fs, none)] := by
  simp [construct, addMaterial, addTexture, addMesh, plain, ha, hK, ObjModel.add, lookup, put_find, hn, primitives]

/-- Texture files in different directories, or of different formats, with the same stem: only the first one is loaded, and both materials refer to it. -/
theorem C62_negation_stem (stem : CStr → CStr) (a b : Mat ℝ) (hs : stem a.mapKd = stem b.mapKd) (ha : a.mapKd ≠ []) (hb : b.mapKd ≠ []) (hab : a.mapKd ≠ b.mapKd) (hn : a.name ≠ textureId (plain stem) a.mapKd) :
    ∃ M, construct (plain stem) { geo := {}, materials := [a, b], meshes := [] } = some M ∧ (∃ i : ℕ, M.assets[i]? = some (Asset.texture a.mapKd)) ∧ ∀ i : ℕ, M.assets[i]? ≠ some (Asset.texture b.mapKd) := by
  have hid : textureId (plain stem) b.mapKd = textureId (plain stem) a.mapKd := congrArg (fun x : CStr => "texture_".toList ++ x) hs.symm
  refine ⟨{ assets := [.texture a.mapKd, matAsset (plain stem) a, matAsset (plain stem) b], map := Mats.put (Mats.put (Mats.put [] (textureId (plain stem) a.mapKd) 0) a.name 1) b.name 2, groups := [] }, ?_, ⟨0, rfl⟩, ?_⟩
  · have e1 : addMaterial (plain stem) {} a = some { assets := [.texture a.mapKd, matAsset (plain stem) a], map := Mats.put (Mats.put [] (textureId (plain stem) a.mapKd) 0) a.name 1, groups := [] } := by
      have : addTexture (plain stem) {} a = some { assets := [.texture a.mapKd], map := Mats.put [] (textureId (plain stem) a.mapKd) 0, groups := [] } := by
        simp [addTexture, ha, Mats.find, plain, ObjModel.add]
      have hbm : ¬ (plain stem).baseMaterial = true := by simp [plain]
      have hcr : (plain stem).creates (matAsset (plain stem) a) = true := plain_creates stem _
      unfold addMaterial
      rw [if_neg hbm, this, Option.bind_some, if_pos hcr]
      rfl
    have e2 : addTexture (plain stem) { assets := [.texture a.mapKd, matAsset (plain stem) a], map := Mats.put (Mats.put [] (textureId (plain stem) a.mapKd) 0) a.name 1, groups := [] } b = some { assets := [.texture a.mapKd, matAsset (plain stem) a], map := Mats.put (Mats.put [] (textureId (plain stem) a.mapKd) 0) a.name 1, groups := [] } := by
      simp only [addTexture, if_neg hb, hid]
      rw [put_find, if_neg hn, put_find, if_pos rfl]
    have hbm : ¬ (plain stem).baseMaterial = true := by simp [plain]
    have hcr : (plain stem).creates (matAsset (plain stem) b) = true := plain_creates stem _
    have e3 : addMaterial (plain stem) { assets := [.texture a.mapKd, matAsset (plain stem) a], map := Mats.put (Mats.put [] (textureId (plain stem) a.mapKd) 0) a.name 1, groups := [] } b = some { assets := [.texture a.mapKd, matAsset (plain stem) a, matAsset (plain stem) b], map := Mats.put (Mats.put (Mats.put [] (textureId (plain stem) a.mapKd) 0) a.name 1) b.name 2, groups := [] } := by
      unfold addMaterial
      rw [if_neg hbm, e2, Option.bind_some, if_pos hcr]
      rfl
    simp only [construct, List.foldlM_cons, List.foldlM_nil, e1, e3, Option.bind_eq_bind, Option.bind_some, pure]
  · intro i
    match i with
    | 0 => simp [hab]
    | 1 => simpa using not_texture (plain stem) a b.mapKd
    | 2 => simpa using not_texture (plain stem) b b.mapKd
    | n + 3 => simp

/-! ### Concrete case -/

/-- A mirror and an emitting material. -/
def exMats : List (Mat ℝ) :=
  [⟨"m".toList, 5, ⟨0, 0, 0⟩, ⟨0, 0, 0⟩, ⟨0, 0, 0⟩, [], 0, 0, 0⟩, ⟨"lamp".toList, 2, ⟨1, 1, 1⟩, ⟨0, 0, 0⟩, ⟨3, 2, 1⟩, "a/wood.png".toList, 0, 10, 0⟩]

theorem head_ne {a b : CStr} (h : a.head? ≠ b.head?) : a ≠ b := fun e => h (by rw [e])

theorem texture_head (c : Config) (f : CStr) : (textureId c f).head? = some 't' := rfl

example (stem : CStr → CStr) : GoodNames (plain stem) exMats := by
  refine ⟨by simp [exMats], ?_, ?_⟩
  · intro m hm n
    simp only [exMats, List.mem_cons, List.not_mem_nil, or_false] at hm
    rcases hm with rfl | rfl
    · constructor
      · intro h; have := congrArg List.length h; simp [meshName] at this
      · intro h; have := congrArg List.length h; simp [lightName, meshName] at this
    · exact ⟨head_ne (by simp [meshName]), head_ne (by simp [lightName, meshName])⟩
  · intro m hm m' _
    simp only [exMats, List.mem_cons, List.not_mem_nil, or_false] at hm
    rcases hm with rfl | rfl
    · exact head_ne (by rw [texture_head]; simp)
    · exact head_ne (by rw [texture_head]; simp)

example (stem : CStr → CStr) : ∃ M, construct (plain stem) { geo := {}, materials := exMats, meshes := [([⟨0, -1, -1⟩, ⟨1, -1, -1⟩, ⟨2, -1, -1⟩], exMats[1])] } = some M :=
  C62_succeeds (plain stem) _ (plain_creates stem)

end LM.Obj
