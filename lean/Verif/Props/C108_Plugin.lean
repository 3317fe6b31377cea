import Verif.Model.TinyObj
import Verif.Props.C61_Faces
import Verif.Props.C62_Model
/-
  C108: A model loaded with the OBJ loader plugin has the geometry, the materials and the faces of the file.
-/
namespace LM.Obj
open LM

variable {K : Type}

/-! ### Specification: how the parser library lays out what it has read -/

/-- Vectors one after the other. -/
def flat3 (l : List (V3 K)) : List K := l.flatMap fun v => [v.x, v.y, v.z]
/-- Pairs one after the other. -/
def flat2 (l : List (K × K)) : List K := l.flatMap fun v => [v.1, v.2]
/-- A shape of triangles. -/
def shapeOf (fs : List TinyFace) : TinyShape where
  numFaceVertices := fs.map fun _ => 3
  materialIds := fs.map (·.material)
  indices := fs.flatMap fun f => [f.is.1, f.is.2.1, f.is.2.2]

/-- The parser has read a file with these positions, normals, texture coordinates and triangulated shapes: there is a position, every shape has a face, and every material number is one of the materials (negative: none given). -/
structure HasRead (a : TinyParsed K) (ps ns : List (V3 K)) (ts : List (K × K)) (shapes : List (List TinyFace)) : Prop where
  ret : a.ret = true
  vertices : a.vertices = flat3 ps
  normals : a.normals = flat3 ns
  texcoords : a.texcoords = flat2 ts
  shape : a.shapes = shapes.map shapeOf
  position : ps ≠ []
  face : ∀ s ∈ shapes, s ≠ []
  material : ∀ s ∈ shapes, ∀ f ∈ s, f.material < max 1 (a.materials.length : ℤ)

/-- The material a face is to get: the one with its number, the first one when it has none. -/
def chosen (ms : List (Mat K)) (id : ℤ) : Option (Mat K) := if id < 0 then ms[0]? else ms[id.toNat]?

/-! ### Proofs -/

theorem copy3_flat (l : List (V3 K)) : copy3 (flat3 l) = some l := by
  induction l with
  | nil => rfl
  | cons v l ih =>
    show copy3 (v.x :: v.y :: v.z :: flat3 l) = _
    rw [copy3, ih]; rfl

theorem copy2_flat (l : List (K × K)) : copy2 (flat2 l) = some l := by
  induction l with
  | nil => rfl
  | cons v l ih =>
    show copy2 (v.1 :: v.2 :: flat2 l) = _
    rw [copy2, ih]; rfl

theorem tinyGeo_read {a : TinyParsed K} {ps ns ts shapes} (h : HasRead a ps ns ts shapes) : tinyGeo a = .ok { ps := ps, ns := ns, ts := ts } := by
  have hv : a.vertices.isEmpty = false := by
    rw [h.vertices]
    cases ps with
    | nil => exact absurd rfl h.position
    | cons v l => rfl
  simp only [tinyGeo, hv, h.normals, h.texcoords]
  rw [h.vertices, copy3_flat, copy3_flat, copy2_flat]
  rfl

theorem chosen_get (ms : List (Mat K)) (id : ℤ) : ms[(if id < 0 then (0 : ℤ) else id).toNat]? = chosen ms id := by
  unfold chosen
  by_cases h : id < 0 <;> simp [h]

theorem tinyCall_ok (ms : List (Mat K)) (calls) (fs : List FaceIndex) (prev : ℤ) (m : Mat K) (h : chosen ms prev = some m) : tinyCall ms calls fs prev = .ok (calls ++ [(fs, m)]) := by
  unfold tinyCall
  rw [chosen_get, h]; rfl

theorem flat_get (pre : List TinyFace) (f : TinyFace) (rest : List TinyFace) (k : ℕ) (hk : k < 3) :
    (shapeOf (pre ++ f :: rest)).indices[pre.length * 3 + k]? = [f.is.1, f.is.2.1, f.is.2.2][k]? := by
  have hl : (pre.flatMap fun f => [f.is.1, f.is.2.1, f.is.2.2]).length = pre.length * 3 := by
    induction pre with
    | nil => rfl
    | cons g pre ih => simp only [List.flatMap_cons, List.length_append, ih, List.length_cons, List.length_nil]; omega
  simp only [shapeOf, List.flatMap_append, List.flatMap_cons]
  rw [List.getElem?_append_right (by omega), hl, Nat.add_sub_cancel_left, List.getElem?_append_left (by simpa using hk)]

/-- The end of a shape, after its faces. -/
def tinyEnd (ms : List (Mat K)) (st : TinyLoop K) : Except Err (List (List FaceIndex × Mat K)) := if st.1.isEmpty then pure st.2.2 else tinyCall ms st.2.2 st.1 st.2.1

theorem loop_eq (ms : List (Mat K)) (g : ℤ → Mat K) (rest : List TinyFace) : ∀ (pre : List TinyFace) (fs : List FaceIndex) (prev : ℤ) (calls : List (List FaceIndex × Mat K)),
    (∀ f ∈ rest, chosen ms f.material = some (g f.material)) → chosen ms prev = some (g prev) →
    ((List.range' pre.length rest.length).foldlM (tinyFaceStep ms (shapeOf (pre ++ rest))) (fs, prev, calls) >>= tinyEnd ms) = .ok (calls ++ (tinyFaces fs prev rest).map fun e => (e.1, g e.2)) := by
  induction rest with
  | nil =>
    intro pre fs prev calls _ hp
    simp only [List.length_nil, List.range'_zero, List.foldlM_nil, pure_bind, tinyEnd, tinyFaces]
    cases fs with
    | nil => simp [pure, Except.pure]
    | cons x xs => simpa using tinyCall_ok ms calls (x :: xs) prev _ hp
  | cons f rest ih =>
    intro pre fs prev calls hr hp
    have e1 : (shapeOf (pre ++ f :: rest)).numFaceVertices[pre.length]? = some 3 := by simp [shapeOf]
    have e2 : (shapeOf (pre ++ f :: rest)).materialIds[pre.length]? = some f.material := by simp [shapeOf]
    have e3 := flat_get pre f rest 0 (by omega)
    have e4 := flat_get pre f rest 1 (by omega)
    have e5 := flat_get pre f rest 2 (by omega)
    rw [List.length_cons, List.range'_succ, List.foldlM_cons]
    have hstep : tinyFaceStep ms (shapeOf (pre ++ f :: rest)) (fs, prev, calls) pre.length =
        .ok (if f.material ≠ prev then ([], f.material, calls ++ [(fs, g prev)]) else (fs ++ [f.is.1, f.is.2.1, f.is.2.2], prev, calls)) := by
      simp only [tinyFaceStep, e1, e2, orUb]
      by_cases hm : f.material = prev
      · simp only [Nat.add_zero] at e3
        simp only [e3, e4, e5, hm]
        simp [bind, Except.bind, pure, Except.pure]
      · simp only [hm, ne_eq, not_false_eq_true, if_true]
        rw [tinyCall_ok ms calls fs prev _ hp]
        simp [bind, Except.bind, pure, Except.pure, hm]
    rw [hstep]
    have hl : pre.length + 1 = (pre ++ [f]).length := by simp
    have hs : pre ++ f :: rest = (pre ++ [f]) ++ rest := by simp
    by_cases hm : f.material = prev
    · simp only [hm, ne_eq, not_true_eq_false, if_false]
      rw [tinyFaces, if_neg (by simpa using hm), hl, hs]
      exact ih (pre ++ [f]) _ prev calls (fun x hx => hr x (by simp [hx])) hp
    · simp only [hm, ne_eq, not_false_eq_true, if_true]
      rw [tinyFaces, if_pos hm, hl, hs]
      have := ih (pre ++ [f]) [] f.material (calls ++ [(fs, g prev)]) (fun x hx => hr x (by simp [hx])) (hr f (by simp))
      rw [List.append_assoc calls] at this
      exact this

theorem tinyShape_eq (ms : List (Mat K)) (g : ℤ → Mat K) (f : TinyFace) (s : List TinyFace) (calls) (h : ∀ x ∈ f :: s, chosen ms x.material = some (g x.material)) :
    tinyShape ms calls (shapeOf (f :: s)) = .ok (calls ++ (tinyFaces [] f.material (f :: s)).map fun e => (e.1, g e.2)) := by
  have := loop_eq ms g (f :: s) [] [] f.material calls h (h f (by simp))
  rw [← this]
  unfold tinyShape
  simp only [shapeOf, List.map_cons, List.getElem?_cons_zero, orUb, List.length_nil, List.nil_append, List.range_eq_range', List.length_cons, List.length_map]
  rfl

/-- The meshes of a shape that is not empty. -/
def shapeCalls : List TinyFace → List (List FaceIndex × ℤ)
  | [] => []
  | f :: s => tinyFaces [] f.material (f :: s)

theorem shapes_eq (ms : List (Mat K)) (g : ℤ → Mat K) (ss : List (List TinyFace)) : ∀ calls, (∀ s ∈ ss, s ≠ []) → (∀ s ∈ ss, ∀ x ∈ s, chosen ms x.material = some (g x.material)) →
    (ss.map shapeOf).foldlM (tinyShape ms) calls = .ok (calls ++ (ss.flatMap shapeCalls).map fun e => (e.1, g e.2)) := by
  induction ss with
  | nil => intro calls _ _; simp [pure, Except.pure]
  | cons s ss ih =>
    intro calls h0 h1
    cases s with
    | nil => exact absurd rfl (h0 [] (by simp))
    | cons f s =>
      rw [List.map_cons, List.foldlM_cons, tinyShape_eq ms g f s calls (h1 _ (by simp))]
      show (ss.map shapeOf).foldlM (tinyShape ms) _ = _
      rw [ih _ (fun s hs => h0 s (by simp [hs])) (fun s hs => h1 s (by simp [hs]))]
      simp [shapeCalls]

variable [OfNat K 1]

theorem mats_length (j : Junk K) (a : TinyParsed K) : ((tinyMats j a).length : ℤ) = max 1 (a.materials.length : ℤ) := by
  unfold tinyMats
  cases h : a.materials with
  | nil => simp
  | cons x l => simp

theorem chosen_some (j : Junk K) (a : TinyParsed K) (id : ℤ) (h : id < max 1 (a.materials.length : ℤ)) : ∃ m, chosen (tinyMats j a) id = some m := by
  have hl := mats_length j a
  have h1 : 0 < (tinyMats j a).length := by have : (0 : ℤ) < max 1 (a.materials.length : ℤ) := by simp
                                            omega
  unfold chosen
  split
  · exact ⟨_, List.getElem?_eq_getElem h1⟩
  · exact ⟨_, List.getElem?_eq_getElem (by omega : id.toNat < (tinyMats j a).length)⟩

theorem tinyLoad_read (j : Junk K) {a : TinyParsed K} {ps ns ts shapes} (h : HasRead a ps ns ts shapes) : ∃ g : ℤ → Mat K,
    (∀ s ∈ shapes, ∀ x ∈ s, chosen (tinyMats j a) x.material = some (g x.material)) ∧
    tinyLoad j a = .ok { geo := { ps := ps, ns := ns, ts := ts }, materials := tinyMats j a, meshes := (shapes.flatMap shapeCalls).map fun e => (e.1, g e.2) } := by
  classical
  obtain ⟨m0, _⟩ := chosen_some j a (-1) (by have : (0:ℤ) < max 1 (a.materials.length : ℤ) := by simp
                                             omega)
  let g : ℤ → Mat K := fun id => (chosen (tinyMats j a) id).getD m0
  have hg : ∀ s ∈ shapes, ∀ x ∈ s, chosen (tinyMats j a) x.material = some (g x.material) := by
    intro s hs x hx
    obtain ⟨m, hm⟩ := chosen_some j a x.material (h.material s hs x hx)
    simp [g, hm]
  refine ⟨g, hg, ?_⟩
  have hs := shapes_eq (tinyMats j a) g shapes [] h.face hg
  simp only [tinyLoad, h.ret, tinyGeo_read h, h.shape]
  show ((shapes.map shapeOf).foldlM (tinyShape (tinyMats j a)) [] >>= _) = _
  rw [hs]
  rfl

/-! ### C108 -/

/-- Every such file loads, and the positions, normals and texture coordinates handed over are those of the file, all of them and in order. -/
theorem C108_geometry (j : Junk K) (a : TinyParsed K) (ps ns : List (V3 K)) (ts : List (K × K)) (shapes : List (List TinyFace)) (h : HasRead a ps ns ts shapes) :
    ∃ L, tinyLoad j a = .ok L ∧ L.geo.ps = ps ∧ L.geo.ns = ns ∧ L.geo.ts = ts := by
  obtain ⟨g, _, e⟩ := tinyLoad_read j h
  exact ⟨_, e, rfl, rfl, rfl⟩

theorem tinyLoad_materials (j : Junk K) (a : TinyParsed K) (L : Loaded K) (h : tinyLoad j a = .ok L) : L.materials = tinyMats j a := by
  unfold tinyLoad at h
  cases hr : a.ret with
  | false => rw [hr] at h; simp [throw, throwThe, MonadExceptOf.throw, bind, Except.bind] at h
  | true =>
    rw [hr] at h
    simp only [bind, Except.bind, Bool.not_true, Bool.false_eq_true, if_false, pure, Except.pure] at h
    split at h
    · cases h
    · split at h
      · cases h
      · cases h; rfl

/-- A file with materials: they are handed over in the order of the file, each with its name, kind, colours, texture, index of refraction, exponent and anisotropy. -/
theorem C108_materials (j : Junk K) (a : TinyParsed K) (L : Loaded K) (h : tinyLoad j a = .ok L) (hm : a.materials ≠ []) :
    List.Forall₂ (fun (t : TinyMat K) (m : Mat K) => m.name = t.name ∧ m.illum = t.illum ∧ m.Kd = t.diffuse ∧ m.Ks = t.specular ∧ m.Ke = t.emission ∧ m.mapKd = t.diffuseTexname ∧ m.Ni = t.ior ∧ m.Ns = t.shininess ∧ m.an = t.anisotropy)
      a.materials L.materials := by
  rw [tinyLoad_materials j a L h, tinyMats, if_neg (by simpa using hm)]
  rw [List.forall₂_map_right_iff, List.forall₂_same]
  intro x _
  exact ⟨rfl, rfl, rfl, rfl, rfl, rfl, rfl, rfl, rfl⟩

/-- When every shape has faces of one material only: the meshes are the shapes, one each and in order, with all faces of the shape and the material they name (the first material when they name none). Missing: shapes with faces of several materials (C108_negation_lost); shapes without faces and files without positions (C108_negation_undefined). -/
theorem C108_faces_partial (j : Junk K) (a : TinyParsed K) (ps ns : List (V3 K)) (ts : List (K × K)) (shapes : List (List TinyFace)) (h : HasRead a ps ns ts shapes)
    (hu : ∀ s ∈ shapes, ∀ f ∈ s, ∀ g ∈ s, f.material = g.material) :
    ∃ L, tinyLoad j a = .ok L ∧ List.Forall₂ (fun (s : List TinyFace) (e : List FaceIndex × Mat K) => e.1 = (s.flatMap fun f => [f.is.1, f.is.2.1, f.is.2.2]) ∧ ∀ f ∈ s, chosen L.materials f.material = some e.2) shapes L.meshes := by
  obtain ⟨g, hg, e⟩ := tinyLoad_read j h
  refine ⟨_, e, ?_⟩
  show List.Forall₂ _ shapes (List.map _ _)
  have h0 := h.face
  show List.Forall₂ (fun (s : List TinyFace) (e : List FaceIndex × Mat K) => e.1 = (s.flatMap fun f => [f.is.1, f.is.2.1, f.is.2.2]) ∧ ∀ f ∈ s, chosen (tinyMats j a) f.material = some e.2) _ _
  clear e h
  induction shapes with
  | nil => exact List.Forall₂.nil
  | cons s ss ih =>
    cases s with
    | nil => exact absurd rfl (h0 [] (by simp))
    | cons f s =>
      have hf : ∀ x ∈ f :: s, x.material = f.material := fun x hx => hu (f :: s) (by simp) x hx f (by simp)
      have hc : shapeCalls (f :: s) = [((f :: s).flatMap fun g => [g.is.1, g.is.2.1, g.is.2.2], f.material)] := C61_tiny_partial f s (fun x hx => hf x (by simp [hx]))
      rw [List.flatMap_cons, hc, List.singleton_append, List.map_cons]
      refine List.Forall₂.cons ⟨rfl, fun x hx => ?_⟩ (ih (fun s hs => hu s (by simp [hs])) (fun s hs => hg s (by simp [hs])) (fun s hs => h0 s (by simp [hs])))
      rw [hf x hx]
      exact hg (f :: s) List.mem_cons_self f List.mem_cons_self

/-- The faces of a shape that have the material of the face before them. -/
def keptFaces : List TinyFace → List TinyFace
  | [] => []
  | f :: s => tinyKept f.material (f :: s)

/-- In general the corners handed over, mesh after mesh, are those of the faces that have the material of the face before them: the first face after each change of material is in no mesh. -/
theorem C108_negation_lost (j : Junk K) (a : TinyParsed K) (ps ns : List (V3 K)) (ts : List (K × K)) (shapes : List (List TinyFace)) (h : HasRead a ps ns ts shapes) :
    ∃ L, tinyLoad j a = .ok L ∧ (L.meshes.flatMap fun e => e.1.map fun i => (i, some e.2)) = (shapes.flatMap fun s => tinyCorners (keptFaces s)).map fun c => (c.1, chosen L.materials c.2) := by
  obtain ⟨g, hg, e⟩ := tinyLoad_read j h
  refine ⟨_, e, ?_⟩
  show (List.flatMap _ (List.map _ _)) = _
  have kept_mem : ∀ (l : List TinyFace) (p : ℤ), ∀ x ∈ tinyKept p l, x ∈ l := by
    intro l
    induction l with
    | nil => intro p x hx; simp [tinyKept] at hx
    | cons f r ih =>
      intro p x hx
      rw [tinyKept] at hx
      split at hx
      · rcases List.mem_cons.1 hx with rfl | hx
        · simp
        · exact List.mem_cons_of_mem _ (ih _ x hx)
      · exact List.mem_cons_of_mem _ (ih _ x hx)
  clear e
  have h0 := h.face
  clear h
  induction shapes with
  | nil => rfl
  | cons s ss ih =>
    have ih := ih (fun s hs => hg s (by simp [hs])) (fun s hs => h0 s (by simp [hs]))
    cases s with
    | nil => exact absurd rfl (h0 [] (by simp))
    | cons f s =>
      rw [List.flatMap_cons, List.map_append, List.flatMap_append, ih, List.flatMap_cons, List.map_append]
      congr 1
      have hc := C61_negation_tiny s f
      have : tinyCorners (keptFaces (f :: s)) = tinyDelivered (shapeCalls (f :: s)) := hc.symm
      rw [this]
      have hgc : ∀ c ∈ tinyDelivered (shapeCalls (f :: s)), chosen (tinyMats j a) c.2 = some (g c.2) := by
        intro c hc'
        rw [← this] at hc'
        obtain ⟨x, hx, hxc⟩ := List.mem_flatMap.1 hc'
        have hxm := kept_mem _ _ x hx
        have : c.2 = x.material := by
          simp only [List.mem_cons, List.not_mem_nil, or_false] at hxc
          rcases hxc with rfl | rfl | rfl <;> rfl
        rw [this]
        exact hg _ (by simp) x hxm
      rw [List.map_congr_left (g := fun c => (c.1, some (g c.2))) (fun c hc => by rw [hgc c hc])]
      simp only [tinyDelivered, List.flatMap_map, List.map_flatMap, List.map_map]
      rfl

/-- For every file that loads, each mesh has one of the materials handed over: with C62, each primitive of the model gets it. -/
theorem C108_owned (j : Junk K) (a : TinyParsed K) (L : Loaded K) (h : tinyLoad j a = .ok L) : ∀ e ∈ L.meshes, e.2 ∈ L.materials := by
  have hm := tinyLoad_materials j a L h
  have hcall : ∀ ms : List (Mat K), ∀ calls fs prev c', (∀ e ∈ calls, e.2 ∈ ms) → tinyCall ms calls fs prev = .ok c' → ∀ e ∈ c', e.2 ∈ ms := by
    intro ms calls fs prev c' hc h e he
    unfold tinyCall at h
    cases hx : ms[(if prev < 0 then (0:ℤ) else prev).toNat]? with
    | none => rw [hx] at h; cases h
    | some m =>
      rw [hx] at h
      cases h
      rcases List.mem_append.1 he with he | he
      · exact hc e he
      · rw [List.mem_singleton.1 he]
        exact List.mem_of_getElem? hx
  have hfold : ∀ {α σ : Type} (P : σ → Prop) (step : σ → α → Except Err σ) (hs : ∀ s x s', P s → step s x = .ok s' → P s') (l : List α) (s s' : σ), P s → l.foldlM step s = .ok s' → P s' := by
    intro α σ P step hs l
    induction l with
    | nil => intro s s' hp h; cases h; exact hp
    | cons x l ih =>
      intro s s' hp h
      rw [List.foldlM_cons] at h
      cases hx : step s x with
      | error e => rw [hx] at h; cases h
      | ok t => rw [hx] at h; exact ih t s' (hs s x t hp hx) h
  have hstep : ∀ ms sh (st : TinyLoop K) fi st', (∀ e ∈ st.2.2, e.2 ∈ ms) → tinyFaceStep ms sh st fi = .ok st' → ∀ e ∈ st'.2.2, e.2 ∈ ms := by
    intro ms sh st fi st' hp h
    unfold tinyFaceStep at h
    cases h1 : sh.numFaceVertices[fi]? with
    | none => rw [h1] at h; cases h
    | some n =>
      rw [h1] at h
      by_cases hn : n = 3
      · cases h2 : sh.materialIds[fi]? with
        | none => rw [h2] at h; simp [orUb, hn, bind, Except.bind, pure, Except.pure] at h
        | some c =>
          rw [h2] at h
          by_cases hc : c = st.2.1
          · simp only [orUb, hn, bind, Except.bind, pure, Except.pure, hc, ne_eq, not_true_eq_false, if_false] at h
            split at h
            · cases h
            · split at h
              · cases h
              · split at h
                · cases h
                · cases h; exact hp
          · simp only [orUb, hn, bind, Except.bind, pure, Except.pure, hc, ne_eq, not_true_eq_false, not_false_eq_true, if_false, if_true] at h
            split at h
            · cases h
            · rename_i c' hc'
              cases h
              exact hcall ms _ _ _ _ hp hc'
      · simp [orUb, hn, bind, Except.bind, throw, throwThe, MonadExceptOf.throw] at h
  have hshape : ∀ ms calls sh c', (∀ e ∈ calls, e.2 ∈ ms) → tinyShape (K := K) ms calls sh = .ok c' → ∀ e ∈ c', e.2 ∈ ms := by
    intro ms calls sh c' hp h
    unfold tinyShape at h
    cases h1 : sh.materialIds[0]? with
    | none => rw [h1] at h; cases h
    | some id0 =>
      rw [h1] at h
      simp only [orUb, bind, Except.bind] at h
      split at h
      · cases h
      · rename_i st hst
        have hp' := hfold (fun st : TinyLoop K => ∀ e ∈ st.2.2, e.2 ∈ ms) _ (hstep ms sh) _ _ st hp hst
        split at h
        · cases h; exact hp'
        · exact hcall ms _ _ _ _ hp' h
  rw [hm]
  unfold tinyLoad at h
  cases hr : a.ret with
  | false => rw [hr] at h; simp [throw, throwThe, MonadExceptOf.throw, bind, Except.bind] at h
  | true =>
    rw [hr] at h
    simp only [bind, Except.bind, Bool.not_true, Bool.false_eq_true, if_false, pure, Except.pure] at h
    split at h
    · cases h
    · split at h
      · cases h
      · rename_i meshes hme
        cases h
        exact hfold (fun c => ∀ e ∈ c, e.2 ∈ tinyMats j a) _ (hshape (tinyMats j a)) _ [] meshes (by simp) hme

/-- A file without materials: one material named default, diffuse and white, for all meshes. When the memory of the unassigned parameters happens to hold zeros it is the default material of the built-in loader. Missing: other contents of this memory (C108_negation_default). -/
theorem C108_default_partial (j : Junk ℝ) (a : TinyParsed ℝ) (L : Loaded ℝ) (h : tinyLoad j a = .ok L) (hm : a.materials = []) :
    (∃ m, L.materials = [m] ∧ m.name = "default".toList ∧ m.illum = -1 ∧ m.Kd = ⟨1, 1, 1⟩ ∧ m.mapKd = []) ∧ (∀ e ∈ L.meshes, L.materials = [e.2]) ∧ (j = ⟨0, 0, 0, 0, 0⟩ → L.materials = [defaultMat]) := by
  have he := tinyLoad_materials j a L h
  have ho := C108_owned j a L h
  rw [tinyMats, hm, if_pos (by rfl)] at he
  refine ⟨⟨_, he, rfl, rfl, rfl, rfl⟩, fun e hx => ?_, fun hj => ?_⟩
  · have := ho e hx
    rw [he, List.mem_singleton] at this
    rw [he, this]
  · rw [he, hj]; rfl

/-! ### Concrete files -/

/-- One triangle, no materials. -/
def oneTriangle : TinyParsed ℝ where
  ret := true
  vertices := [0, 0, 0, 1, 0, 0, 0, 1, 0]
  normals := []
  texcoords := []
  shapes := [shapeOf [⟨({ p := 0 }, { p := 1 }, { p := 2 }), -1⟩]]
  materials := []

theorem oneTriangle_read : HasRead oneTriangle [⟨0, 0, 0⟩, ⟨1, 0, 0⟩, ⟨0, 1, 0⟩] [] [] [[⟨({ p := 0 }, { p := 1 }, { p := 2 }), -1⟩]] where
  ret := rfl
  vertices := rfl
  normals := rfl
  texcoords := rfl
  shape := rfl
  position := by simp
  face := by simp
  material := by simp [oneTriangle]

/-- The same file, the same settings: whether the triangle is a light depends on what was in memory. The default material of the built-in loader emits nothing. -/
theorem C108_negation_default (stem : CStr → CStr) : (∃ (j : Junk ℝ) (mat mesh : Asset), ((tinyLoad j oneTriangle).toOption.bind fun L => (construct (plain stem) L).bind primitives) = some [(mesh, mat, none)]) ∧
    (∃ (j : Junk ℝ) (mat mesh light : Asset), ((tinyLoad j oneTriangle).toOption.bind fun L => (construct (plain stem) L).bind primitives) = some [(mesh, mat, some light)]) ∧ ¬ emits (defaultMat (K := ℝ)).Ke := by
  have key : ∀ j : Junk ℝ, ∃ mat mesh : Asset, ∃ light : Option Asset, ((tinyLoad j oneTriangle).toOption.bind fun L => (construct (plain stem) L).bind primitives) = some [(mesh, mat, light)] ∧ (light.isSome ↔ emits j.Ke) := by
    intro j
    obtain ⟨L, hL, hx⟩ := C108_faces_partial j oneTriangle _ _ _ _ oneTriangle_read (by
      intro s hs f hf g hg
      rw [List.mem_singleton] at hs
      subst hs
      rw [List.mem_singleton] at hf hg
      rw [hf, hg])
    have hmat := tinyLoad_materials j oneTriangle L hL
    have hmat : L.materials = [tinyDefault j] := hmat
    have ho := C108_owned j oneTriangle L hL
    obtain ⟨M, hM⟩ := C62_succeeds (plain stem) L (fun _ => rfl)
    have hN : GoodNames (plain stem) L.materials := by
      rw [hmat]
      refine ⟨by simp, ?_, ?_⟩
      · intro m hm n
        rw [List.mem_singleton] at hm
        subst hm
        exact ⟨head_ne (by simp [tinyDefault, meshName]), head_ne (by simp [tinyDefault, lightName, meshName])⟩
      · intro m hm m' _
        rw [List.mem_singleton] at hm
        subst hm
        exact head_ne (by rw [texture_head]; simp [tinyDefault])
    obtain ⟨ts, hts, hF⟩ := C62_triples_partial (plain stem) L hN ho M hM
    obtain ⟨e, he⟩ : ∃ e, L.meshes = [e] := by
      cases hl : L.meshes with
      | nil => rw [hl] at hx; cases hx
      | cons e r =>
        rw [hl] at hx
        cases hx with
        | cons _ hr => cases hr; exact ⟨e, rfl⟩
    rw [he] at hF
    have hem : e.2 = tinyDefault j := by
      have := ho e (by rw [he]; simp)
      rwa [hmat, List.mem_singleton] at this
    cases hF with
    | cons ht hr =>
      cases hr
      rename_i t
      refine ⟨t.2.1, t.1, t.2.2, ?_, ?_⟩
      · rw [hL]
        show ((construct (plain stem) L).bind primitives) = _
        rw [hM]
        exact hts
      · have h' := ht.light
        rw [hem] at h'
        have hj : (tinyDefault j).Ke = j.Ke := rfl
        rw [hj] at h'
        rcases h' with ⟨h1, n, h2⟩ | ⟨h1, h2⟩
        · simp [h1, h2]
        · simp [h1, h2]
  have hz : ¬ emits (0 : V3 ℝ) := by
    show ¬ (max (max (0:ℝ) 0) 0 > 0)
    simp
  refine ⟨?_, ?_, hz⟩
  · obtain ⟨mat, mesh, light, h, hl⟩ := key ⟨0, 0, 0, 0, 0⟩
    refine ⟨⟨0, 0, 0, 0, 0⟩, mat, mesh, ?_⟩
    cases light with
    | none => exact h
    | some l => exact absurd (hl.1 rfl) hz
  · obtain ⟨mat, mesh, light, h, hl⟩ := key ⟨0, ⟨1, 1, 1⟩, 0, 0, 0⟩
    have he : emits (⟨1, 1, 1⟩ : V3 ℝ) := by
      show max (max (1:ℝ) 1) 1 > 0
      simp
    cases light with
    | none => exact absurd (hl.2 he) (by simp)
    | some l => exact ⟨_, mat, mesh, l, h⟩

/-- A file without positions, and a file with a shape without faces, are read outside of arrays. -/
theorem C108_negation_undefined (j : Junk K) (a : TinyParsed K) : (a.ret = true → a.vertices = [] → tinyLoad j a = .error .ub) ∧
    (∀ ps ns ts shapes, HasRead a ps ns ts shapes → tinyLoad j { a with shapes := a.shapes ++ [shapeOf []] } = .error .ub) := by
  constructor
  · intro hr hv
    simp only [tinyLoad, tinyGeo, hr, hv]
    rfl
  · intro ps ns ts shapes h
    obtain ⟨g, hg, e⟩ := tinyLoad_read j h
    have hs := shapes_eq (tinyMats j a) g shapes [] h.face hg
    have h' : tinyGeo { a with shapes := a.shapes ++ [shapeOf []] } = .ok { ps := ps, ns := ns, ts := ts } := (rfl : _ = tinyGeo a).trans (tinyGeo_read h)
    have hm' : tinyMats j { a with shapes := a.shapes ++ [shapeOf []] } = tinyMats j a := rfl
    unfold tinyLoad
    rw [h', hm']
    simp only [h.ret, h.shape]
    show (((shapes.map shapeOf) ++ [shapeOf []]).foldlM (tinyShape (tinyMats j a)) [] >>= _) = _
    rw [List.foldlM_append, hs]
    rfl

/-- Two shapes, the first with the material blue, the second one without material. -/
def twoShapes : TinyParsed ℝ where
  ret := true
  vertices := [0, 0, 0, 1, 0, 0, 0, 1, 0]
  normals := [0, 0, 1]
  texcoords := [0, 1]
  shapes := [shapeOf [⟨(⟨0, 0, 0⟩, ⟨1, 0, 0⟩, ⟨2, 0, 0⟩), 1⟩, ⟨(⟨2, 0, 0⟩, ⟨1, 0, 0⟩, ⟨0, 0, 0⟩), 1⟩], shapeOf [⟨(⟨0, -1, -1⟩, ⟨2, -1, -1⟩, ⟨1, -1, -1⟩), -1⟩]]
  materials := [⟨"red".toList, 2, ⟨1, 0, 0⟩, 0, 0, [], 1, 10, 0⟩, ⟨"blue".toList, 2, ⟨0, 0, 1⟩, 0, 0, [], 1, 10, 0⟩]

example : HasRead twoShapes [⟨0, 0, 0⟩, ⟨1, 0, 0⟩, ⟨0, 1, 0⟩] [⟨0, 0, 1⟩] [(0, 1)] [[⟨(⟨0, 0, 0⟩, ⟨1, 0, 0⟩, ⟨2, 0, 0⟩), 1⟩, ⟨(⟨2, 0, 0⟩, ⟨1, 0, 0⟩, ⟨0, 0, 0⟩), 1⟩], [⟨(⟨0, -1, -1⟩, ⟨2, -1, -1⟩, ⟨1, -1, -1⟩), -1⟩]] where
  ret := rfl
  vertices := rfl
  normals := rfl
  texcoords := rfl
  shape := rfl
  position := by simp
  face := by simp
  material := by simp [twoShapes]

end LM.Obj
