import Verif.Props.C87_Path
import Verif.Props.C77_Strategy
import Verif.Props.C50_Mis
/-
  C87: the densities and contributions that the code computes for a full path.
-/
namespace LM.Transport
open MeasureTheory LM LM.Surface LM.Material LM.Light LM.MathF LM.Path LM.Render LM.Solid Set
open scoped ENNReal

/-! ### Vertices of a path, in either order -/

/-- The vertices in the order of a transport direction. -/
def ord (vs : List Vert) : TransDir → List Vert
  | .LE => vs
  | .EL => vs.reverse

theorem vertexAt_ord (vs : List Vert) (i : ℕ) (dir : TransDir) : vertexAt vs i dir = (ord vs dir)[i]? := by
  unfold vertexAt index
  by_cases h : i < vs.length
  · rw [if_pos (by omega)]
    cases dir
    · simp [ord]
    · rw [if_neg (by decide)]
      simp only [ord]
      rw [List.getElem?_reverse h]
      congr 1
      omega
  · rw [if_neg (by omega)]
    have : (ord vs dir).length ≤ i := by cases dir <;> simp [ord] <;> omega
    rw [List.getElem?_eq_none this]

theorem vertexAt_neg (vs : List Vert) (dir : TransDir) : vertexAt vs (0 - 1) dir = none := by simp [vertexAt]

theorem normalize_dirOf {p q : V3 ℝ} (h : p ≠ q) : Material.normalize (q - p) = some (dirOf (q - p)) := by
  simp [Material.normalize, sub_dot_ne h, dirOf]

theorem direction_of {u v : Vert} (hu : u.sp.geom.infinite = false) (hv : v.sp.geom.infinite = false) (h : u.sp.geom.p ≠ v.sp.geom.p) :
    direction (some u) (some v) = some (dirOf (v.sp.geom.p - u.sp.geom.p)) := by
  simp [direction, hu, hv, normalize_dirOf h]

/-- The cosine in a geometry term. -/
noncomputable def slope (g : Geom) (d : V3 ℝ) : ℝ := if g.degenerated then 1 else |V3.dot g.n d|

theorem term_of {g g' : Geom} (hu : g.infinite = false) (hv : g'.infinite = false) (h : g.p ≠ g'.p) :
    geometryTerm g g' = some (slope g (dirOf (g'.p - g.p)) * (slope g' (dirOf (g'.p - g.p)) / V3.dot (g'.p - g.p) (g'.p - g.p))) := by
  have hL := sub_dot_ne h
  unfold geometryTerm
  simp only [hu, hv, Bool.and_self, Bool.or_self, Bool.false_eq_true, if_false, Bool.or_false, hL]
  congr 1
  have e : ∀ d, V3.dot g'.n (-d) = -V3.dot g'.n d := fun d => V3.dot_neg_right _ _
  rw [e, abs_neg, mul_div_assoc]
  rfl

section
variable {W : World} {vs : List Vert} {dir : TransDir}

/-- Looking up neighbours. -/
theorem look {us a b : List Vert} {u v w : Vert} (e : us = a ++ u :: v :: w :: b) : us[a.length]? = some u ∧ us[a.length + 1]? = some v ∧ us[a.length + 2]? = some w := by
  subst e
  simp

theorem pdf_step {a b : List Vert} {u v w : Vert} (e : ord vs dir = a ++ u :: v :: w :: b) {wi wo : V3 ℝ} (hwi : direction (some v) (some u) = some wi) (hwo : direction (some v) (some w) = some wo)
    {pc pd G : ℝ} (hc : pdfComponent W w.sp (-wo) w.comp = some pc) (hd : pdfDirection W v.sp wi wo v.comp false = some pd) (hG : geometryTerm v.sp.geom w.sp.geom = some G) (k : ℕ) (p : ℝ) :
    pdfLoop W vs dir (k + 1) ((a.length + 1 : ℕ) : ℤ) p = pdfLoop W vs dir k ((a.length + 2 : ℕ) : ℤ) (p * (pc * (pd * G))) := by
  obtain ⟨h0, h1, h2⟩ := look e
  have e0 : vertexAt vs (((a.length + 1 : ℕ) : ℤ) - 1) dir = some u := by rw [show ((a.length + 1 : ℕ) : ℤ) - 1 = (a.length : ℕ) by push_cast; ring, vertexAt_ord, h0]
  have e1 : vertexAt vs ((a.length + 1 : ℕ) : ℤ) dir = some v := by rw [vertexAt_ord, h1]
  have e2 : vertexAt vs (((a.length + 1 : ℕ) : ℤ) + 1) dir = some w := by rw [show ((a.length + 1 : ℕ) : ℤ) + 1 = (a.length + 2 : ℕ) by push_cast; ring, vertexAt_ord, h2]
  rw [pdfLoop]
  simp only [e0, e1, e2, hwi, hwo, hc, hd, convertToArea, hG, Option.bind_eq_bind, Option.bind_some, Option.map_some]
  rw [show ((a.length + 1 : ℕ) : ℤ) + 1 = (a.length + 2 : ℕ) by push_cast; ring]

theorem pdf_first {b : List Vert} {v w : Vert} (e : ord vs dir = v :: w :: b) {wo : V3 ℝ} (hwo : direction (some v) (some w) = some wo)
    {pc pd G : ℝ} (hc : pdfComponent W w.sp (-wo) w.comp = some pc) (hd : pdfDirection W v.sp 0 wo v.comp false = some pd) (hG : geometryTerm v.sp.geom w.sp.geom = some G) (k : ℕ) (p : ℝ) :
    pdfLoop W vs dir (k + 1) 0 p = pdfLoop W vs dir k ((0 + 1 : ℕ) : ℤ) (p * (pc * (pd * G))) := by
  have e1 : vertexAt vs 0 dir = some v := by have := vertexAt_ord vs 0 dir; rw [e] at this; simpa using this
  have e2 : vertexAt vs (0 + 1) dir = some w := by have := vertexAt_ord vs 1 dir; rw [e] at this; simpa using this
  have e3 : direction (some v) none = some 0 := rfl
  rw [pdfLoop]
  simp only [vertexAt_neg, e1, e2, e3, hwo, hc, hd, convertToArea, hG, Option.bind_eq_bind, Option.bind_some, Option.map_some]
  rfl

theorem contrb_step {a b : List Vert} {u v w : Vert} (e : ord vs dir = a ++ u :: v :: w :: b) {wi wo : V3 ℝ} (hwi : direction (some v) (some u) = some wi) (hwo : direction (some v) (some w) = some wo)
    {f : V3 ℝ} {G : ℝ} (hf : evalContrbDirection W v.sp wi wo v.comp dir false = some f) (hG : geometryTerm v.sp.geom w.sp.geom = some G) (k : ℕ) (p : V3 ℝ) :
    contrbLoop W vs dir (k + 1) ((a.length + 1 : ℕ) : ℤ) p = contrbLoop W vs dir k ((a.length + 2 : ℕ) : ℤ) (G • (p * f)) := by
  obtain ⟨h0, h1, h2⟩ := look e
  have e0 : vertexAt vs (((a.length + 1 : ℕ) : ℤ) - 1) dir = some u := by rw [show ((a.length + 1 : ℕ) : ℤ) - 1 = (a.length : ℕ) by push_cast; ring, vertexAt_ord, h0]
  have e1 : vertexAt vs ((a.length + 1 : ℕ) : ℤ) dir = some v := by rw [vertexAt_ord, h1]
  have e2 : vertexAt vs (((a.length + 1 : ℕ) : ℤ) + 1) dir = some w := by rw [show ((a.length + 1 : ℕ) : ℤ) + 1 = (a.length + 2 : ℕ) by push_cast; ring, vertexAt_ord, h2]
  rw [contrbLoop]
  simp only [e0, e1, e2, hwi, hwo, hf, hG, Option.bind_eq_bind, Option.bind_some]
  rw [show ((a.length + 1 : ℕ) : ℤ) + 1 = (a.length + 2 : ℕ) by push_cast; ring]

theorem contrb_first {b : List Vert} {v w : Vert} (e : ord vs dir = v :: w :: b) {wo : V3 ℝ} (hwo : direction (some v) (some w) = some wo)
    {f : V3 ℝ} {G : ℝ} (hf : evalContrbDirection W v.sp 0 wo v.comp dir false = some f) (hG : geometryTerm v.sp.geom w.sp.geom = some G) (k : ℕ) (p : V3 ℝ) :
    contrbLoop W vs dir (k + 1) 0 p = contrbLoop W vs dir k ((0 + 1 : ℕ) : ℤ) (G • (p * f)) := by
  have e1 : vertexAt vs 0 dir = some v := by have := vertexAt_ord vs 0 dir; rw [e] at this; simpa using this
  have e2 : vertexAt vs (0 + 1) dir = some w := by have := vertexAt_ord vs 1 dir; rw [e] at this; simpa using this
  have e3 : direction (some v) none = some 0 := rfl
  rw [contrbLoop]
  simp only [vertexAt_neg, e1, e2, e3, hwo, hf, hG, Option.bind_eq_bind, Option.bind_some]
  rfl

end

/-! ### What the functions of the scene report -/

namespace Site
variable (S : Site)

/-- A point of a surface, with one of its components. -/
def Fit (y : Node) : Prop := y.1.1 ∈ S.Fs.map (·.1) ∧ y.2 ∈ S.C y.1.1

/-- The vertex of a path at a point of a surface. -/
def toVert (y : Node) : Vert := ⟨S.vertex y.1.1 y.1.2, y.2⟩

/-- The vertex is at the point z of a light. -/
structure Lit (v : Vert) (z : Spot) : Prop where
  kind : v.sp.kind = .light
  primitive : v.sp.primitive = z.1
  p : v.sp.geom.p = z.2
  n : v.sp.geom.n = S.nrm z
  infinite : v.sp.geom.infinite = false
  degenerated : v.sp.geom.degenerated = false

/-- The vertex of the camera. -/
noncomputable def camV (W : World) (n : Int) (cam : Camera) : Vert := ⟨camVertex W n cam, 0⟩

/-- What the path sampling functions report is the data of the site. -/
structure Told (W : World) (n : Int) (cam : Camera) : Prop where
  position : cam.position = S.eye
  cameraAt : W.cameraAt n = some cam
  camera : ∀ d, camEval cam d = some (V3.all (S.We d)) ∧ camPdfDirection cam d = some (S.We d)
  We0 : ∀ d, 0 ≤ S.We d
  surface : ∀ j ∈ S.Fs.map (·.1), ∀ p, (S.vertex j p).kind = .surface
  eval : ∀ j ∈ S.Fs.map (·.1), ∀ c ∈ S.C j, ∀ p wi wo, V3.dot wi wi = 1 → V3.dot wo wo = 1 → V3.dot wi (S.vertex j p).geom.n ≠ 0 → ∀ dir e, evalContrbDirection W (S.vertex j p) wi wo c dir e = some (shadingNormalCorrection (S.vertex j p).geom wi wo dir • S.f j c p wi wo)
  nonneg : ∀ j ∈ S.Fs.map (·.1), ∀ c ∈ S.C j, ∀ p wi wo, V3.dot wi wi = 1 → V3.dot wo wo = 1 → V3.dot wi (S.vertex j p).geom.n ≠ 0 → NonNeg (S.f j c p wi wo)
  reciprocal : ∀ j ∈ S.Fs.map (·.1), ∀ c ∈ S.C j, ∀ p wi wo, V3.dot wi wi = 1 → V3.dot wo wo = 1 → V3.dot wi (S.vertex j p).geom.n ≠ 0 → V3.dot wo (S.vertex j p).geom.n ≠ 0 → S.f j c p wi wo = S.f j c p wo wi
  pdf : ∀ j ∈ S.Fs.map (·.1), ∀ c ∈ S.C j, ∀ p wi wo, V3.dot wi wi = 1 → V3.dot wo wo = 1 → V3.dot wi (S.vertex j p).geom.n ≠ 0 → pdfDirection W (S.vertex j p) wi wo c false = some (S.P j c p wi wo)
  component : ∀ j ∈ S.Fs.map (·.1), ∀ c ∈ S.C j, ∀ p wi, V3.dot wi wi = 1 → V3.dot wi (S.vertex j p).geom.n ≠ 0 → pdfComponent W (S.vertex j p) wi c = some (S.pc j c p wi)
  plain : ∀ j ∈ S.Fs.map (·.1), ∀ c ∈ S.C j, ∀ p, isSpecularComponent W (S.vertex j p) c = some false
  lamp : ∀ v z, S.Lit v z → ∀ L, W.lightAt z.1 = some L → (∀ wo e, L.eval v.sp.geom wo e = S.Le z.1 z.2 wo) ∧ (∀ wo, L.pdfDirection v.sp.geom wo = some (S.PL z.1 z.2 wo)) ∧ pdfPosition W v.sp = some (S.pA z.1) ∧ L.isConnectable = true ∧ L.isSpecular = false

/-- The point y can be reached from o: they differ, and the direction is not a grazing one. -/
def Hop (o : V3 ℝ) (y : Spot) : Prop := o ≠ y.2 ∧ V3.dot (dirOf (o - y.2)) (S.nrm y) ≠ 0

/-- Each point of the list can be reached from the one before. -/
def Hops : V3 ℝ → List Node → Prop
  | _, [] => True
  | o, y :: l => S.Hop o y.1 ∧ Hops y.1.2 l

/-- The last point on the way from o through the list. -/
def lastP : V3 ℝ → List Node → V3 ℝ
  | o, [] => o
  | _, y :: l => lastP y.1.2 l

/-- Each point of a full path can be reached from both neighbours. -/
structure Clear (m : List Node) (z : Spot) : Prop where
  there : S.Hops S.eye m
  back : S.Hops z.2 m.reverse
  last : lastP S.eye m ≠ z.2

theorem Hops.take {S : Site} {o : V3 ℝ} {l : List Node} (h : S.Hops o l) (k : ℕ) : S.Hops o (l.take k) := by
  induction l generalizing o k with
  | nil => simpa using h
  | cons y l ih =>
    cases k with
    | zero => trivial
    | succ k => exact ⟨h.1, ih h.2 k⟩

theorem Hops.split {S : Site} {o : V3 ℝ} {a b : List Node} {y : Node} (h : S.Hops o (a ++ y :: b)) : S.Hop (lastP o a) y.1 := by
  induction a generalizing o with
  | nil => exact h.1
  | cons x a ih => exact ih h.2

/-- The full path: from z through the points of m, which are listed from the camera on, to the camera. -/
noncomputable def pathOf (W : World) (n : Int) (cam : Camera) (zv : Vert) (m : List Node) : List Vert := (camV W n cam :: (m.map S.toVert ++ [zv])).reverse

variable {S} {W : World} {n : Int} {cam : Camera}

theorem pathOf_EL (zv : Vert) (m : List Node) : ord (S.pathOf W n cam zv m) .EL = camV W n cam :: (m.map S.toVert ++ [zv]) := by simp [ord, pathOf]

theorem pathOf_LE (zv : Vert) (m : List Node) : ord (S.pathOf W n cam zv m) .LE = zv :: (m.reverse.map S.toVert ++ [camV W n cam]) := by simp [ord, pathOf]

theorem pathOf_length (zv : Vert) (m : List Node) : (S.pathOf W n cam zv m).length = m.length + 2 := by simp [pathOf]

/-- What geometry a vertex of the path has. -/
theorem Sound.at (h : S.Sound) (y : Node) : (S.toVert y).sp.geom.p = y.1.2 ∧ (S.toVert y).sp.geom.infinite = false ∧ (S.toVert y).sp.geom.degenerated = false ∧ (S.toVert y).sp.geom.n = S.nrm y.1 :=
  ⟨(h.faceted.at_point _ _).2.1, (h.faceted.at_point _ _).2.2.1, (h.faceted.at_point _ _).2.2.2, rfl⟩

theorem unit_to {p q : V3 ℝ} (h : p ≠ q) : V3.dot (dirOf (q - p)) (dirOf (q - p)) = 1 := by
  have hp : 0 < V3.dot (q - p) (q - p) := lt_of_le_of_ne (dot_self_nonneg _) (Ne.symm (sub_dot_ne h))
  exact (dirOf_spec hp).1

section
variable (h : S.Sound) (T : S.Told W n cam)
include h

theorem direction_nodes {x y : Node} (hne : x.1.2 ≠ y.1.2) : direction (some (S.toVert x)) (some (S.toVert y)) = some (dirOf (y.1.2 - x.1.2)) := by
  rw [direction_of (h.at x).2.1 (h.at y).2.1 (by rw [(h.at x).1, (h.at y).1]; exact hne), (h.at x).1, (h.at y).1]

theorem direction_node {v : Vert} (hv : v.sp.geom.infinite = false) {y : Node} (hne : v.sp.geom.p ≠ y.1.2) :
    direction (some v) (some (S.toVert y)) = some (dirOf (y.1.2 - v.sp.geom.p)) ∧ direction (some (S.toVert y)) (some v) = some (dirOf (v.sp.geom.p - y.1.2)) := by
  rw [direction_of hv (h.at y).2.1 (by rw [(h.at y).1]; exact hne), direction_of (h.at y).2.1 hv (by rw [(h.at y).1]; exact hne.symm), (h.at y).1]
  exact ⟨rfl, rfl⟩

theorem slope_node (y : Node) (d : V3 ℝ) : slope (S.toVert y).sp.geom d = |V3.dot (S.nrm y.1) d| := by
  unfold slope
  rw [(h.at y).2.2.1]
  rfl

/-- Geometry terms to a point of a surface. -/
theorem term_node {v : Vert} (hv : v.sp.geom.infinite = false) {y : Node} (hne : v.sp.geom.p ≠ y.1.2) :
    geometryTerm v.sp.geom (S.toVert y).sp.geom = some (slope v.sp.geom (dirOf (y.1.2 - v.sp.geom.p)) * S.facing v.sp.geom.p y.1) := by
  rw [term_of hv (h.at y).2.1 (by rw [(h.at y).1]; exact hne), (h.at y).1, slope_node h]
  rfl

omit h in
theorem term_lit {v : Vert} (hv : v.sp.geom.infinite = false) {zv : Vert} {z : Spot} (hz : S.Lit zv z) (hne : v.sp.geom.p ≠ z.2) :
    geometryTerm v.sp.geom zv.sp.geom = some (slope v.sp.geom (dirOf (z.2 - v.sp.geom.p)) * S.facing v.sp.geom.p z) := by
  rw [term_of hv hz.infinite (by rw [hz.p]; exact hne), hz.p]
  unfold slope
  simp only [hz.degenerated, hz.n, Bool.false_eq_true, if_false]
  rfl

include T

theorem Told.step {x y : Node} {u : Vert} (hu : u.sp.geom.infinite = false) (hux : S.Hop u.sp.geom.p x.1) (hxy : S.Hop x.1.2 y.1) (hx : S.Fit x) (hy : S.Fit y) {vs a b : List Vert} {dir : TransDir}
    (e : ord vs dir = a ++ u :: S.toVert x :: S.toVert y :: b) (k : ℕ) (p : ℝ) :
    pdfLoop W vs dir (k + 1) ((a.length + 1 : ℕ) : ℤ) p = pdfLoop W vs dir k ((a.length + 2 : ℕ) : ℤ) (p * S.linkR u.sp.geom.p x y) := by
  have hc := T.component y.1.1 hy.1 y.2 hy.2 y.1.2 (dirOf (x.1.2 - y.1.2)) (unit_to hxy.1.symm) hxy.2
  have hd := T.pdf x.1.1 hx.1 x.2 hx.2 x.1.2 (dirOf (u.sp.geom.p - x.1.2)) (dirOf (y.1.2 - x.1.2)) (unit_to hux.1.symm) (unit_to hxy.1) hux.2
  rw [dirOf_swap] at hc
  have hG := term_node h (v := S.toVert x) (h.at x).2.1 (y := y) (by rw [(h.at x).1]; exact hxy.1)
  rw [slope_node h, (h.at x).1] at hG
  rw [pdf_step e (direction_node h hu hux.1).2 (direction_nodes h hxy.1) hc hd hG]
  congr 1
  unfold linkR goR pickR cosAt
  rw [dirOf_swap x.1.2 y.1.2]
  ring

theorem Told.links {u : Vert} (hu : u.sp.geom.infinite = false) {x : Node} (hux : S.Hop u.sp.geom.p x.1) {l : List Node} (hl : S.Hops x.1.2 l) (hx : S.Fit x) (hfit : ∀ y ∈ l, S.Fit y) {vs a b : List Vert} {dir : TransDir}
    (e : ord vs dir = a ++ u :: S.toVert x :: (l.map S.toVert ++ b)) (p : ℝ) : pdfLoop W vs dir l.length ((a.length + 1 : ℕ) : ℤ) p = some (p * S.linksR u.sp.geom.p x l) := by
  induction l generalizing u x a p with
  | nil => simp [pdfLoop, linksR]
  | cons y l ih =>
    rw [List.length_cons, T.step h hu hux hl.1 hx (hfit y (by simp)) (b := l.map S.toVert ++ b) (by rw [e]; simp)]
    have := ih (h.at x).2.1 (u := S.toVert x) (x := y) (by rw [(h.at x).1]; exact hl.1) hl.2 (hfit y (by simp)) (fun y' hy' => hfit y' (by simp [hy'])) (a := a ++ [u]) (by rw [e]; simp) (p * S.linkR u.sp.geom.p x y)
    rw [List.length_append, List.length_singleton] at this
    rw [this, (h.at x).1]
    simp only [linksR, mul_assoc]

theorem Told.last {u : Vert} (hu : u.sp.geom.infinite = false) {x : Node} (hux : S.Hop u.sp.geom.p x.1) {l : List Node} {zv : Vert} {z : Spot} (hz : S.Lit zv z) (hl : S.Hops x.1.2 l) (hend : lastP x.1.2 l ≠ z.2) (hx : S.Fit x) (hfit : ∀ y ∈ l, S.Fit y)
    {vs a : List Vert} {dir : TransDir} (e : ord vs dir = a ++ u :: S.toVert x :: (l.map S.toVert ++ [zv])) (p : ℝ) :
    pdfLoop W vs dir (l.length + 1) ((a.length + 1 : ℕ) : ℤ) p = some (p * (S.linksR u.sp.geom.p x l * S.lastR u.sp.geom.p x l z)) := by
  induction l generalizing u x a p with
  | nil =>
    have hl : x.1.2 ≠ z.2 := hend
    have hne : (S.toVert x).sp.geom.p ≠ zv.sp.geom.p := by rw [(h.at x).1, hz.p]; exact hl
    have hd := T.pdf x.1.1 hx.1 x.2 hx.2 x.1.2 (dirOf (u.sp.geom.p - x.1.2)) (dirOf (z.2 - x.1.2)) (unit_to hux.1.symm) (unit_to hl) hux.2
    have hdir := direction_of (h.at x).2.1 hz.infinite hne
    rw [(h.at x).1, hz.p] at hdir
    have hG := term_lit (v := S.toVert x) (h.at x).2.1 hz (by rw [(h.at x).1]; exact hl)
    rw [slope_node h, (h.at x).1] at hG
    have hc : pdfComponent W zv.sp (-dirOf (z.2 - x.1.2)) zv.comp = some 1 := by simp [pdfComponent, hz.kind]
    rw [List.length_nil, pdf_step (b := []) (by rw [e]; simp) (direction_node h hu hux.1).2 hdir hc hd hG]
    simp only [pdfLoop, linksR, lastR, goR, cosAt]
    congr 1
    ring
  | cons y l ih =>
    rw [List.length_cons, T.step h hu hux hl.1 hx (hfit y (by simp)) (b := l.map S.toVert ++ [zv]) (by rw [e]; simp)]
    have := ih (h.at x).2.1 (u := S.toVert x) (x := y) (by rw [(h.at x).1]; exact hl.1) hl.2 hend (hfit y (by simp)) (fun y' hy' => hfit y' (by simp [hy'])) (a := a ++ [u]) (by rw [e]; simp) (p * S.linkR u.sp.geom.p x y)
    rw [List.length_append, List.length_singleton] at this
    rw [this, (h.at x).1]
    simp only [linksR, lastR, mul_assoc]

/-! ### From the camera and from the light -/

omit h T in
theorem camV_geom : (camV W n cam).sp.geom.infinite = false ∧ (camV W n cam).sp.geom.degenerated = true ∧ (camV W n cam).sp.geom.p = cam.position := ⟨rfl, rfl, rfl⟩

theorem Told.fromEye {zv : Vert} {m : List Node} (hm : S.Hops S.eye m) (hfit : ∀ y ∈ m, S.Fit y) {k : ℕ} (hk : k ≤ m.length) :
    subpathPdf W (S.pathOf W n cam zv m) (k + 1) .EL = some (S.eyesR (m.take k)) := by
  have e := pathOf_EL (S := S) (W := W) (n := n) (cam := cam) zv m
  have e0 : vertexAt (S.pathOf W n cam zv m) 0 .EL = some (camV W n cam) := by have := vertexAt_ord (S.pathOf W n cam zv m) 0 .EL; rw [e] at this; simpa using this
  have hpos : pdfPosition W (camV W n cam).sp = some 1 := by simp [pdfPosition, camV, camVertex, T.cameraAt]
  have hcon : isConnectableEndpoint W (camV W n cam).sp = some true := by simp [isConnectableEndpoint, camV, camVertex, T.cameraAt]
  have hcp : pdfComponent W (camV W n cam).sp 0 (camV W n cam).comp = some 1 := rfl
  rw [subpathPdf, if_neg (by omega)]
  simp only [e0, hcon, hpos, hcp, Option.bind_eq_bind, Option.bind_some, if_true, Nat.add_sub_cancel, one_mul]
  cases m with
  | nil =>
    have : k = 0 := by simpa using hk
    subst this
    simp [pdfLoop, eyesR]
  | cons y l =>
    cases k with
    | zero => simp [pdfLoop, eyesR]
    | succ k =>
      have hk : k ≤ l.length := by simpa using hk
      have hfy := hfit y (by simp)
      have hne : (camV W n cam).sp.geom.p ≠ y.1.2 := by rw [camV_geom.2.2, T.position]; exact hm.1.1
      have hdir := (direction_node h (v := camV W n cam) rfl hne).1
      have hc := T.component y.1.1 hfy.1 y.2 hfy.2 y.1.2 (dirOf (S.eye - y.1.2)) (unit_to hm.1.1.symm) hm.1.2
      rw [dirOf_swap] at hc
      have hd : pdfDirection W (camV W n cam).sp 0 (dirOf (y.1.2 - S.eye)) (camV W n cam).comp false = some (S.We (dirOf (y.1.2 - S.eye))) := by
        simp [pdfDirection, camV, camVertex, T.cameraAt, (T.camera _).2]
      have hG := term_node h (v := camV W n cam) rfl hne
      rw [camV_geom.2.2, T.position] at hdir hG
      rw [pdf_first (b := l.map S.toVert ++ [zv]) (by rw [e]; simp) hdir hc hd hG]
      have hl := T.links h (u := camV W n cam) rfl (by rw [camV_geom.2.2, T.position]; exact hm.1) (l := l.take k) (hm.2.take k) hfy (fun y' hy' => hfit y' (by simp [List.mem_of_mem_take hy']))
        (vs := S.pathOf W n cam zv (y :: l)) (a := []) (b := (l.drop k).map S.toVert ++ [zv]) (dir := .EL) (by rw [e, ← List.append_assoc, ← List.map_append, List.take_append_drop]; rfl)
      rw [List.length_take, min_eq_left hk] at hl
      have hl := hl (1 * (S.pickR S.eye y * (S.We (dirOf (y.1.2 - S.eye)) * (slope (camV W n cam).sp.geom (dirOf (y.1.2 - S.eye)) * S.facing S.eye y.1))))
      rw [camV_geom.2.2, T.position] at hl
      have hs : slope (camV W n cam).sp.geom (dirOf (y.1.2 - S.eye)) = 1 := rfl
      rw [hs, one_mul] at hl ⊢
      rw [← dirOf_swap]
      refine hl.trans ?_
      simp only [List.take_succ_cons, eyesR, eyeR]
      congr 1
      ring

theorem Told.fromEyeAll {zv : Vert} {z : Spot} (hz : S.Lit zv z) {m : List Node} (hm : S.Hops S.eye m) (hend : lastP S.eye m ≠ z.2) (hfit : ∀ y ∈ m, S.Fit y) :
    subpathPdf W (S.pathOf W n cam zv m) (m.length + 2) .EL = some (S.eyesR m * S.reachR m z) := by
  have e := pathOf_EL (S := S) (W := W) (n := n) (cam := cam) zv m
  have e0 : vertexAt (S.pathOf W n cam zv m) 0 .EL = some (camV W n cam) := by have := vertexAt_ord (S.pathOf W n cam zv m) 0 .EL; rw [e] at this; simpa using this
  have hpos : pdfPosition W (camV W n cam).sp = some 1 := by simp [pdfPosition, camV, camVertex, T.cameraAt]
  have hcon : isConnectableEndpoint W (camV W n cam).sp = some true := by simp [isConnectableEndpoint, camV, camVertex, T.cameraAt]
  have hcp : pdfComponent W (camV W n cam).sp 0 (camV W n cam).comp = some 1 := rfl
  have hpd : ∀ d, pdfDirection W (camV W n cam).sp 0 d (camV W n cam).comp false = some (S.We d) := fun d => by
    simp [pdfDirection, camV, camVertex, T.cameraAt, (T.camera _).2]
  rw [subpathPdf, if_neg (by omega)]
  simp only [e0, hcon, hpos, hcp, Option.bind_eq_bind, Option.bind_some, if_true, one_mul]
  rw [show m.length + 2 - 1 = m.length + 1 by omega]
  cases m with
  | nil =>
    have hne : (camV W n cam).sp.geom.p ≠ z.2 := by rw [camV_geom.2.2, T.position]; exact hend
    have hdir := direction_of (u := camV W n cam) (v := zv) rfl hz.infinite (by rw [hz.p]; exact hne)
    have hG := term_lit (v := camV W n cam) rfl hz hne
    rw [camV_geom.2.2, T.position] at hG
    rw [camV_geom.2.2, T.position, hz.p] at hdir
    have hc : pdfComponent W zv.sp (-dirOf (z.2 - S.eye)) zv.comp = some 1 := by simp [pdfComponent, hz.kind]
    rw [List.length_nil, pdf_first (b := []) (by rw [e]; simp) hdir hc (hpd _) hG]
    have hs : slope (camV W n cam).sp.geom (dirOf (z.2 - S.eye)) = 1 := rfl
    simp [pdfLoop, eyesR, reachR, eyeR, hs]
  | cons y l =>
    have hfy := hfit y (by simp)
    have hne : (camV W n cam).sp.geom.p ≠ y.1.2 := by rw [camV_geom.2.2, T.position]; exact hm.1.1
    have hdir := (direction_node h (v := camV W n cam) rfl hne).1
    have hc := T.component y.1.1 hfy.1 y.2 hfy.2 y.1.2 (dirOf (S.eye - y.1.2)) (unit_to hm.1.1.symm) hm.1.2
    rw [dirOf_swap] at hc
    have hG := term_node h (v := camV W n cam) rfl hne
    rw [camV_geom.2.2, T.position] at hdir hG
    rw [List.length_cons, pdf_first (b := l.map S.toVert ++ [zv]) (by rw [e]; simp) hdir hc (hpd _) hG]
    have hl := T.last h (u := camV W n cam) rfl (by rw [camV_geom.2.2, T.position]; exact hm.1) hz hm.2 hend hfy (fun y' hy' => hfit y' (by simp [hy'])) (vs := S.pathOf W n cam zv (y :: l)) (a := []) (dir := .EL) (by rw [e]; rfl)
      (1 * (S.pickR S.eye y * (S.We (dirOf (y.1.2 - S.eye)) * (slope (camV W n cam).sp.geom (dirOf (y.1.2 - S.eye)) * S.facing S.eye y.1))))
    rw [camV_geom.2.2, T.position] at hl
    have hs : slope (camV W n cam).sp.geom (dirOf (y.1.2 - S.eye)) = 1 := rfl
    rw [hs, one_mul] at hl ⊢
    rw [← dirOf_swap]
    refine hl.trans ?_
    simp only [eyesR, reachR, eyeR]
    congr 1
    ring

theorem Told.fromLight {zv : Vert} {z : Spot} (hz : S.Lit zv z) {L : Light} (hL : W.lightAt z.1 = some L) {m : List Node} (hr : S.Hops z.2 m.reverse) (hfit : ∀ y ∈ m, S.Fit y) {k : ℕ} (hk : k ≤ m.length) :
    subpathPdf W (S.pathOf W n cam zv m) (k + 1) .LE = some (S.lampsR z (m.drop (m.length - k)).reverse) := by
  have e := pathOf_LE (S := S) (W := W) (n := n) (cam := cam) zv m
  have er : (m.drop (m.length - k)).reverse = m.reverse.take k := by rw [List.take_reverse]
  rw [er]
  have hfit' : ∀ y ∈ m.reverse, S.Fit y := fun y hy => hfit y (by simpa using hy)
  have hk' : k ≤ m.reverse.length := by simpa using hk
  set r := m.reverse with hrd
  set vs := S.pathOf W n cam zv m with hvs
  have e0 : vertexAt vs 0 .LE = some zv := by have := vertexAt_ord vs 0 .LE; rw [e] at this; simpa using this
  obtain ⟨hev, hpd, hpos, hconn, hsp⟩ := T.lamp zv z hz L hL
  have hcon : isConnectableEndpoint W zv.sp = some true := by simp [isConnectableEndpoint, hz.kind, hz.primitive, hL, hconn]
  have hcp : pdfComponent W zv.sp 0 zv.comp = some 1 := by simp [pdfComponent, hz.kind]
  rw [subpathPdf, if_neg (by omega)]
  simp only [e0, hcon, hpos, hcp, Option.bind_eq_bind, Option.bind_some, if_true, Nat.add_sub_cancel, mul_one]
  cases hr' : r with
  | nil =>
    rw [hr'] at hk'
    have : k = 0 := by simpa using hk'
    subst this
    simp [pdfLoop, lampsR]
  | cons y l =>
    cases k with
    | zero => simp [pdfLoop, lampsR]
    | succ k =>
      rw [hr'] at hk' hfit' hr e
      have hk : k ≤ l.length := by simpa using hk'
      have hfy := hfit' y (by simp)
      have hne : zv.sp.geom.p ≠ y.1.2 := by rw [hz.p]; exact hr.1.1
      have hdir := (direction_node h hz.infinite hne).1
      have hc := T.component y.1.1 hfy.1 y.2 hfy.2 y.1.2 (dirOf (z.2 - y.1.2)) (unit_to hr.1.1.symm) hr.1.2
      rw [dirOf_swap] at hc
      have hd : pdfDirection W zv.sp 0 (dirOf (y.1.2 - z.2)) zv.comp false = some (S.PL z.1 z.2 (dirOf (y.1.2 - z.2))) := by
        simp [pdfDirection, hz.kind, hz.primitive, hL, hpd]
      have hG := term_node h hz.infinite hne
      rw [hz.p] at hdir hG
      rw [pdf_first (b := l.map S.toVert ++ [camV W n cam]) (by rw [e]; simp) hdir hc hd hG]
      have hl := T.links h (u := zv) hz.infinite (by rw [hz.p]; exact hr.1) (l := l.take k) (hr.2.take k) hfy (fun y' hy' => hfit' y' (by simp [List.mem_of_mem_take hy']))
        (vs := vs) (a := []) (b := (l.drop k).map S.toVert ++ [camV W n cam]) (dir := .LE) (by rw [e, ← List.append_assoc, ← List.map_append, List.take_append_drop]; rfl)
      rw [List.length_take, min_eq_left hk] at hl
      have hl := hl (S.pA z.1 * (S.pickR z.2 y * (S.PL z.1 z.2 (dirOf (y.1.2 - z.2)) * (slope zv.sp.geom (dirOf (y.1.2 - z.2)) * S.facing z.2 y.1))))
      rw [hz.p] at hl
      rw [← dirOf_swap]
      refine hl.trans ?_
      have hs : slope zv.sp.geom (dirOf (y.1.2 - z.2)) = S.cosAt z y.1.2 := by simp [slope, hz.degenerated, hz.n, cosAt]
      rw [hs]
      simp only [List.take_succ_cons, lampsR, lampR]
      congr 1
      ring

omit h in
/-- The strategies that can sample a full path: all but the one that samples the camera. -/
theorem Told.samplable {zv : Vert} {z : Spot} (hz : S.Lit zv z) {L : Light} (hL : W.lightAt z.1 = some L) {m : List Node} (hfit : ∀ y ∈ m, S.Fit y) {s : ℕ} (hs : s ≤ m.length + 2) :
    isSamplable W (S.pathOf W n cam zv m) s = some (decide (s ≤ m.length + 1)) := by
  have eL := pathOf_LE (S := S) (W := W) (n := n) (cam := cam) zv m
  have eE := pathOf_EL (S := S) (W := W) (n := n) (cam := cam) zv m
  have hlen := pathOf_length (S := S) (W := W) (n := n) (cam := cam) zv m
  obtain ⟨hev, hpd, hpos, hconn, hspec⟩ := T.lamp zv z hz L hL
  set vs := S.pathOf W n cam zv m with hvs
  have v0 : vertexAt vs 0 .LE = some zv := by have := vertexAt_ord vs 0 .LE; rw [eL] at this; simpa using this
  have w0 : vertexAt vs 0 .EL = some (camV W n cam) := by have := vertexAt_ord vs 0 .EL; rw [eE] at this; simpa using this
  have hzs : isSpecularComponent W zv.sp zv.comp = some false := by simp [isSpecularComponent, hz.kind, hz.primitive, hL, hspec]
  have hcs : isSpecularComponent W (camV W n cam).sp (camV W n cam).comp = some false := rfl
  rcases Nat.eq_zero_or_pos s with rfl | hpos
  · simp [isSamplable, v0, hz.degenerated, hzs]
  obtain ⟨k, rfl⟩ : ∃ k, s = k + 1 := ⟨s - 1, by omega⟩
  by_cases hk : k ≤ m.length
  · have hspecAll : ∀ v ∈ vs, isSpecularComponent W v.sp v.comp = some false := by
      intro v hv
      have : v ∈ ord vs .LE := hv
      rw [eL] at this
      simp only [List.mem_cons, List.mem_append, List.mem_map, List.mem_reverse, List.not_mem_nil, or_false] at this
      rcases this with rfl | ⟨y, hy, rfl⟩ | rfl
      · exact hzs
      · exact T.plain _ (hfit y hy).1 _ (hfit y hy).2 _
      · exact hcs
    have hL' : ∃ vL, vertexAt vs (((k + 1 : ℕ) : ℤ) - 1) .LE = some vL ∧ vL ∈ vs ∧ (k = 0 → vL = zv) := by
      rw [show ((k + 1 : ℕ) : ℤ) - 1 = (k : ℕ) by push_cast; ring, vertexAt_ord]
      have hl : k < (ord vs .LE).length := by rw [eL]; simp; omega
      refine ⟨(ord vs .LE)[k], by simp [hl], List.getElem_mem hl, fun h0 => ?_⟩
      subst h0
      simp [eL]
    have hE' : ∃ vE, vertexAt vs ((vs.length : ℤ) - ((k + 1 : ℕ) : ℤ) - 1) .EL = some vE ∧ vE ∈ vs ∧ (m.length = k → vE = camV W n cam) := by
      rw [show (vs.length : ℤ) - ((k + 1 : ℕ) : ℤ) - 1 = ((m.length - k : ℕ) : ℤ) by rw [hlen]; push_cast [hk]; ring, vertexAt_ord]
      have hl : m.length - k < (ord vs .EL).length := by rw [eE]; simp; omega
      refine ⟨(ord vs .EL)[m.length - k], by simp [hl], ?_, fun h0 => ?_⟩
      · have := List.getElem_mem hl
        simpa [ord] using this
      · simp [eE, h0]
    obtain ⟨vL, hvL, hmL, hvL0⟩ := hL'
    obtain ⟨vE, hvE, hmE, hvE0⟩ := hE'
    have hcz : isConnectableEndpoint W zv.sp = some true := by simp [isConnectableEndpoint, hz.kind, hz.primitive, hL, hconn]
    have hcc : isConnectableEndpoint W (camV W n cam).sp = some true := by simp [isConnectableEndpoint, camV, camVertex, T.cameraAt]
    have hok : isSamplable W vs (k + 1) = some true := by
      unfold isSamplable
      dsimp only
      rw [if_neg (by omega), if_neg (by rw [hlen]; omega)]
      have c1 : (if k + 1 = 1 then isConnectableEndpoint W vL.sp else some true) = some true := by
        split_ifs with h1
        · rw [hvL0 (by omega), hcz]
        · rfl
      have c2 : (if (vs.length : ℤ) - ((k + 1 : ℕ) : ℤ) = 1 then isConnectableEndpoint W vE.sp else some true) = some true := by
        split_ifs with h1
        · rw [hvE0 (by rw [hlen] at h1; omega), hcc]
        · rfl
      simp only [hvL, hvE, Option.bind_eq_bind, Option.bind_some]
      by_cases h1 : k + 1 = 1
      · rw [if_pos h1] at c1
        rw [if_pos h1]
        by_cases h2 : (vs.length : ℤ) - ((k + 1 : ℕ) : ℤ) = 1
        · rw [if_pos h2] at c2
          simp only [if_pos h2, c1, c2, Option.bind_some, hspecAll vL hmL, hspecAll vE hmE]
          rfl
        · simp only [if_neg h2, c1, Option.bind_some, hspecAll vL hmL, hspecAll vE hmE]
          rfl
      · rw [if_neg h1]
        by_cases h2 : (vs.length : ℤ) - ((k + 1 : ℕ) : ℤ) = 1
        · rw [if_pos h2] at c2
          simp only [if_pos h2, c2, Option.bind_some, hspecAll vL hmL, hspecAll vE hmE]
          rfl
        · simp only [if_neg h2, Option.bind_some, hspecAll vL hmL, hspecAll vE hmE]
          rfl
    rw [hok, decide_eq_true (by omega)]
  · have hk : k = m.length + 1 := by omega
    subst hk
    have hok : isSamplable W vs (m.length + 1 + 1) = some false := by
      unfold isSamplable
      dsimp only
      rw [if_neg (by omega), if_pos (by rw [hlen]; push_cast; ring)]
      simp [w0, camV_geom.2.1]
    rw [hok, decide_eq_false (by omega)]

/-- The density of a full path, for each strategy. -/
theorem Told.dens {zv : Vert} {z : Spot} (hz : S.Lit zv z) {L : Light} (hL : W.lightAt z.1 = some L) {m : List Node} (hm : S.Clear m z) (hfit : ∀ y ∈ m, S.Fit y) {s : ℕ} (hs : s ≤ m.length + 2) :
    pdfBidir W (S.pathOf W n cam zv m) s = some (S.dens m z s) := by
  have hlen := pathOf_length (S := S) (W := W) (n := n) (cam := cam) zv m
  have hok := T.samplable hz hL hfit hs
  set vs := S.pathOf W n cam zv m with hvs
  rw [pdfBidir]
  rcases Nat.eq_zero_or_pos s with rfl | hpos
  · rw [decide_eq_true (by omega)] at hok
    have h0 : subpathPdf W vs 0 .LE = some 1 := by simp [subpathPdf]
    simp only [hok, h0, Option.bind_eq_bind, Option.bind_some, Bool.not_true, Bool.false_eq_true, if_false]
    rw [Nat.sub_zero, hlen, T.fromEyeAll h hz hm.there hm.last hfit]
    simp [Site.dens]
  obtain ⟨k, rfl⟩ : ∃ k, s = k + 1 := ⟨s - 1, by omega⟩
  by_cases hk : k ≤ m.length
  · rw [decide_eq_true (by omega)] at hok
    have hE := T.fromEye h (zv := zv) (m := m) hm.there hfit (k := m.length - k) (by omega)
    have hLt := T.fromLight h hz hL hm.back hfit hk
    rw [← hvs] at hE hLt
    have hlE : vs.length - (k + 1) = m.length - k + 1 := by omega
    simp only [hok, Option.bind_eq_bind, Option.bind_some, Bool.not_true, Bool.false_eq_true, if_false, hlE, hE, hLt]
    simp [Site.dens, hk]
  · rw [decide_eq_false (by omega)] at hok
    have hk : k = m.length + 1 := by omega
    subst hk
    simp [hok, Site.dens]

/-! ### The contribution -/

/-- Scattering at x of what comes from y towards w, with the geometry term. -/
noncomputable def carryV (S : Site) (w : V3 ℝ) (x : Node) (y : Spot) : V3 ℝ :=
  (S.cosAt x.1 y.2 * S.facing x.1.2 y * shadingNormalCorrection (S.vertex x.1.1 x.1.2).geom (dirOf (w - x.1.2)) (dirOf (y.2 - x.1.2)) .EL) • S.f x.1.1 x.2 x.1.2 (dirOf (w - x.1.2)) (dirOf (y.2 - x.1.2))

/-- Scattering at the points from x on. -/
noncomputable def chainV (S : Site) : V3 ℝ → Node → List Node → Spot → V3 ℝ
  | w, x, [], z => carryV S w x z
  | w, x, y :: l, z => carryV S w x y.1 * chainV S x.1.2 y l z

/-- Importance times scattering along the path. -/
noncomputable def firstV (S : Site) : List Node → Spot → V3 ℝ
  | [], z => V3.all (S.We (dirOf (z.2 - S.eye)) * S.facing S.eye z)
  | y :: l, z => (S.We (dirOf (y.1.2 - S.eye)) * S.facing S.eye y.1) • chainV S S.eye y l z

/-- The contribution of the full path. -/
noncomputable def wholeV (S : Site) (m : List Node) (z : Spot) : V3 ℝ := S.Le z.1 z.2 (dirOf (lastP S.eye m - z.2)) * firstV S m z

theorem Told.cstep {x : Node} {y : Spot} {u v : Vert} (hu : u.sp.geom.infinite = false) (hux : S.Hop u.sp.geom.p x.1) (hxy : x.1.2 ≠ y.2) (hx : S.Fit x) {vs a b : List Vert}
    (hdir : direction (some (S.toVert x)) (some v) = some (dirOf (y.2 - x.1.2))) (hG : geometryTerm (S.toVert x).sp.geom v.sp.geom = some (S.cosAt x.1 y.2 * S.facing x.1.2 y))
    (e : ord vs .EL = a ++ u :: S.toVert x :: v :: b) (k : ℕ) (p : V3 ℝ) :
    contrbLoop W vs .EL (k + 1) ((a.length + 1 : ℕ) : ℤ) p = contrbLoop W vs .EL k ((a.length + 2 : ℕ) : ℤ) (p * carryV S u.sp.geom.p x y) := by
  have hf := T.eval x.1.1 hx.1 x.2 hx.2 x.1.2 (dirOf (u.sp.geom.p - x.1.2)) (dirOf (y.2 - x.1.2)) (unit_to hux.1.symm) (unit_to hxy) hux.2 .EL false
  rw [contrb_step e (direction_node h hu hux.1).2 hdir hf hG]
  congr 1
  unfold carryV
  rw [mul_smul]
  ext <;> simp <;> ring

theorem Told.clast {u : Vert} (hu : u.sp.geom.infinite = false) {x : Node} (hux : S.Hop u.sp.geom.p x.1) {l : List Node} {zv : Vert} {z : Spot} (hz : S.Lit zv z) (hl : S.Hops x.1.2 l) (hend : lastP x.1.2 l ≠ z.2) (hx : S.Fit x) (hfit : ∀ y ∈ l, S.Fit y)
    {vs a : List Vert} (e : ord vs .EL = a ++ u :: S.toVert x :: (l.map S.toVert ++ [zv])) (p : V3 ℝ) :
    contrbLoop W vs .EL (l.length + 1) ((a.length + 1 : ℕ) : ℤ) p = some (p * chainV S u.sp.geom.p x l z) := by
  induction l generalizing u x a p with
  | nil =>
    have hl : x.1.2 ≠ z.2 := hend
    have hne : (S.toVert x).sp.geom.p ≠ zv.sp.geom.p := by rw [(h.at x).1, hz.p]; exact hl
    have hdir := direction_of (h.at x).2.1 hz.infinite hne
    rw [(h.at x).1, hz.p] at hdir
    have hG := term_lit (v := S.toVert x) (h.at x).2.1 hz (by rw [(h.at x).1]; exact hl)
    rw [slope_node h, (h.at x).1] at hG
    rw [List.length_nil, T.cstep h hu hux hl hx hdir hG (b := []) (by rw [e]; simp)]
    simp only [contrbLoop, chainV]
  | cons y l ih =>
    have hdir := direction_nodes h hl.1.1
    have hG := term_node h (v := S.toVert x) (h.at x).2.1 (y := y) (by rw [(h.at x).1]; exact hl.1.1)
    rw [slope_node h, (h.at x).1] at hG
    rw [List.length_cons, T.cstep h hu hux hl.1.1 hx hdir hG (b := l.map S.toVert ++ [zv]) (by rw [e]; simp)]
    have := ih (h.at x).2.1 (u := S.toVert x) (x := y) (by rw [(h.at x).1]; exact hl.1) hl.2 hend (hfit y (by simp)) (fun y' hy' => hfit y' (by simp [hy'])) (a := a ++ [u]) (by rw [e]; simp) (p * carryV S u.sp.geom.p x y.1)
    rw [List.length_append, List.length_singleton] at this
    rw [this, (h.at x).1]
    simp only [chainV]
    congr 1
    ext <;> simp <;> ring

omit h T in
theorem lastP_snoc (o : V3 ℝ) (l : List Node) (y : Node) : lastP o (l ++ [y]) = y.1.2 := by
  induction l generalizing o with
  | nil => rfl
  | cons x l ih => exact ih _

/-- The contribution, computed from the camera. -/
theorem Told.contrb0 {zv : Vert} {z : Spot} (hz : S.Lit zv z) {L : Light} (hL : W.lightAt z.1 = some L) {m : List Node} (hm : S.Clear m z) (hfit : ∀ y ∈ m, S.Fit y) :
    measurementContrb W (S.pathOf W n cam zv m) 0 = some (wholeV S m z) := by
  have eL := pathOf_LE (S := S) (W := W) (n := n) (cam := cam) zv m
  have e := pathOf_EL (S := S) (W := W) (n := n) (cam := cam) zv m
  have hlen := pathOf_length (S := S) (W := W) (n := n) (cam := cam) zv m
  obtain ⟨hev, -⟩ := T.lamp zv z hz L hL
  set vs := S.pathOf W n cam zv m with hvs
  have v0 : vertexAt vs 0 .LE = some zv := by have := vertexAt_ord vs 0 .LE; rw [eL] at this; simpa using this
  have hcd : ∃ v1, vertexAt vs 1 .LE = some v1 ∧ v1.sp.geom.infinite = false ∧ v1.sp.geom.p = lastP S.eye m := by
    have := vertexAt_ord vs 1 .LE
    rw [eL] at this
    simp only [Nat.cast_one, List.getElem?_cons_succ] at this
    rw [this]
    rcases List.eq_nil_or_concat m with rfl | ⟨m', y, rfl⟩
    · exact ⟨camV W n cam, by simp, rfl, T.position⟩
    · exact ⟨S.toVert y, by simp, (h.at y).2.1, by rw [(h.at y).1, List.concat_eq_append, lastP_snoc]⟩
  obtain ⟨v1, hv1, hi1, hp1⟩ := hcd
  have hdz : direction (some zv) (some v1) = some (dirOf (lastP S.eye m - z.2)) := by
    rw [direction_of hz.infinite hi1 (by rw [hz.p, hp1]; exact hm.last.symm), hz.p, hp1]
  have hc : connectionTerm W vs 0 = some (S.Le z.1 z.2 (dirOf (lastP S.eye m - z.2))) := by
    unfold connectionTerm
    dsimp only
    rw [if_pos ⟨rfl, by rw [hlen]; push_cast; omega⟩]
    simp only [v0, hv1, hdz, Option.bind_eq_bind, Option.bind_some]
    simp [evalContrbDirection, hz.kind, hz.primitive, hL, hev]
  have hE : subpathContrb W vs (vs.length - 0) .EL = some (firstV S m z) := by
    rw [Nat.sub_zero, hlen, subpathContrb, if_neg (by omega), show m.length + 2 - 1 = m.length + 1 by omega]
    have hpd : ∀ d, evalContrbDirection W (camV W n cam).sp 0 d (camV W n cam).comp .EL false = some (V3.all (S.We d)) := fun d => by
      simp [evalContrbDirection, camV, camVertex, T.cameraAt, (T.camera _).1]
    have hs : ∀ d, slope (camV W n cam).sp.geom d = 1 := fun _ => rfl
    cases m with
    | nil =>
      have hne : (camV W n cam).sp.geom.p ≠ z.2 := by rw [camV_geom.2.2, T.position]; exact hm.last
      have hdir := direction_of (u := camV W n cam) (v := zv) rfl hz.infinite (by rw [hz.p]; exact hne)
      have hG := term_lit (v := camV W n cam) rfl hz hne
      rw [camV_geom.2.2, T.position, hs, one_mul] at hG
      rw [camV_geom.2.2, T.position, hz.p] at hdir
      rw [List.length_nil, contrb_first (b := []) (by rw [e]; simp) hdir (hpd _) hG]
      simp only [contrbLoop, firstV]
      congr 1
      ext <;> simp [V3.all] <;> ring
    | cons y l =>
      have hfy := hfit y (by simp)
      have hy := hm.there.1
      have hne : (camV W n cam).sp.geom.p ≠ y.1.2 := by rw [camV_geom.2.2, T.position]; exact hy.1
      have hdir := (direction_node h (v := camV W n cam) rfl hne).1
      have hG := term_node h (v := camV W n cam) rfl hne
      rw [camV_geom.2.2, T.position] at hdir hG
      rw [hs, one_mul] at hG
      rw [List.length_cons, contrb_first (b := l.map S.toVert ++ [zv]) (by rw [e]; simp) hdir (hpd _) hG]
      have hl := T.clast h (u := camV W n cam) rfl (by rw [camV_geom.2.2, T.position]; exact hy) hz hm.there.2 hm.last hfy (fun y' hy' => hfit y' (by simp [hy'])) (vs := vs) (a := []) (by rw [e]; rfl)
        (S.facing S.eye y.1 • (V3.all 1 * V3.all (S.We (dirOf (y.1.2 - S.eye)))))
      rw [camV_geom.2.2, T.position] at hl
      refine hl.trans ?_
      simp only [firstV]
      congr 1
      have e' : ∀ (a b : ℝ) (v : V3 ℝ), a • (V3.all 1 * V3.all b) * v = (b * a) • v := fun a b v => by
        ext <;> simp only [V3.all, V3.smul_x, V3.smul_y, V3.smul_z, V3.mul_x, V3.mul_y, V3.mul_z] <;> ring
      exact e' _ _ _
  have hLt : subpathContrb W vs 0 .LE = some (V3.all 1) := by simp [subpathContrb]
  simp only [measurementContrb, hLt, hE, hc, Option.bind_eq_bind, Option.bind_some]
  unfold wholeV
  congr 1
  ext <;> simp [V3.all]

/-- The contribution is the same for all strategies. -/
theorem Told.contrb {zv : Vert} {z : Spot} (hz : S.Lit zv z) {L : Light} (hL : W.lightAt z.1 = some L) {m : List Node} (hm : S.Clear m z) (hfit : ∀ y ∈ m, S.Fit y) {s : ℕ} (hs : s ≤ m.length + 2) :
    measurementContrb W (S.pathOf W n cam zv m) s = some (wholeV S m z) := by
  have eL := pathOf_LE (S := S) (W := W) (n := n) (cam := cam) zv m
  have hlen := pathOf_length (S := S) (W := W) (n := n) (cam := cam) zv m
  have h0 := T.contrb0 h hz hL hm hfit
  obtain ⟨hev, -⟩ := T.lamp zv z hz L hL
  set vs := S.pathOf W n cam zv m with hvs
  have eL' : vs = zv :: (m.reverse.map S.toVert ++ [camV W n cam]) := eL
  have key : ∃ f, ∀ s ≤ vs.length, measurementContrb W vs s = some f := by
    -- the neighbours of an inner vertex
    have hin : ∀ (i : ℕ) v, 0 < i → i + 1 < vs.length → vs[i]? = some v → ∃ y ∈ m, v = S.toVert y ∧ ∃ ul ur, vertexAt vs (i - 1) .LE = some ul ∧ vertexAt vs (i + 1) .LE = some ur ∧ ul.sp.geom.infinite = false ∧ ur.sp.geom.infinite = false ∧
        S.Hop ul.sp.geom.p y.1 ∧ S.Hop ur.sp.geom.p y.1 := by
      intro i v hi hi1 hv
      obtain ⟨k, rfl⟩ : ∃ k, i = k + 1 := ⟨i - 1, by omega⟩
      have hk : k < m.reverse.length := by simp; omega
      obtain ⟨a, y, b, hab, hka⟩ : ∃ a y b, m.reverse = a ++ y :: b ∧ a.length = k := ⟨m.reverse.take k, m.reverse[k], m.reverse.drop (k + 1), by rw [← List.drop_eq_getElem_cons hk, List.take_append_drop], by rw [List.length_take]; omega⟩
      have hmr : m = b.reverse ++ y :: a.reverse := by rw [← List.reverse_reverse m, hab]; simp
      have hv' : v = S.toVert y := by
        rw [eL', hab] at hv
        subst hka
        simpa using hv.symm
      have hback := hm.back
      rw [hab] at hback
      have hthere := hm.there
      rw [hmr] at hthere
      refine ⟨y, by rw [hmr]; simp, hv', ?_⟩
      have hul : ∃ ul, vertexAt vs (((k + 1 : ℕ) : ℤ) - 1) .LE = some ul ∧ ul.sp.geom.infinite = false ∧ ul.sp.geom.p = lastP z.2 a := by
        rw [show ((k + 1 : ℕ) : ℤ) - 1 = (k : ℕ) by push_cast; ring, vertexAt_ord, eL, hab, ← hka]
        rcases List.eq_nil_or_concat a with rfl | ⟨a', x, rfl⟩
        · exact ⟨zv, by simp, hz.infinite, hz.p⟩
        · exact ⟨S.toVert x, by simp, (h.at x).2.1, by rw [(h.at x).1, List.concat_eq_append, lastP_snoc]⟩
      have hur : ∃ ur, vertexAt vs (((k + 1 : ℕ) : ℤ) + 1) .LE = some ur ∧ ur.sp.geom.infinite = false ∧ ur.sp.geom.p = lastP S.eye b.reverse := by
        rw [show ((k + 1 : ℕ) : ℤ) + 1 = (k + 2 : ℕ) by push_cast; ring, vertexAt_ord, eL, hab, ← hka]
        cases b with
        | nil => exact ⟨camV W n cam, by simp, rfl, T.position⟩
        | cons x b' => exact ⟨S.toVert x, by simp, (h.at x).2.1, by rw [(h.at x).1, List.reverse_cons, lastP_snoc]⟩
      obtain ⟨ul, e1, i1, p1⟩ := hul
      obtain ⟨ur, e2, i2, p2⟩ := hur
      exact ⟨ul, ur, e1, e2, i1, i2, by rw [p1]; exact hback.split, by rw [p2]; exact hthere.split⟩
    refine C77_local_partial W vs (by omega) ?_ ?_ ?_ ?_
    · intro v hv
      rw [eL'] at hv
      have : v = zv := by simpa using hv.symm
      subst this
      exact ⟨hz.kind, L, by rw [hz.primitive]; exact hL, fun wo => by rw [hev, hev]⟩
    · intro v hv
      have : v = camV W n cam := by
        rw [hlen, eL'] at hv
        simpa using hv.symm
      subst this
      exact ⟨rfl, cam, T.cameraAt, fun wo => ⟨_, (T.camera wo).1⟩⟩
    · intro i v wl wr hi hi1 hv hwl hwr
      obtain ⟨y, hy, rfl, ul, ur, e1, e2, i1, i2, hl, hr⟩ := hin i v hi hi1 hv
      rw [e1, (direction_node h i1 hl.1).2] at hwl
      rw [e2, (direction_node h i2 hr.1).2] at hwr
      cases hwl
      cases hwr
      have ul1 := unit_to hl.1.symm
      have ur1 := unit_to hr.1.symm
      obtain ⟨fj, fc⟩ := hfit y hy
      refine ⟨_, fun e => ⟨T.eval _ fj _ fc _ _ _ ul1 ur1 hl.2 .LE e, (T.eval _ fj _ fc _ _ _ ur1 ul1 hr.2 .EL e).trans ?_⟩⟩
      rw [T.reciprocal _ fj _ fc _ _ _ ur1 ul1 hr.2 hl.2, LM.Path.snc_swap _ (h.flat _ fj _)]
    · intro i a b ha hb
      have hil : i + 1 < vs.length := (List.getElem?_eq_some_iff.mp hb).1
      have va : vertexAt vs (i : ℤ) .LE = some a := by rw [vertexAt_ord]; exact ha
      have vb : vertexAt vs ((i + 1 : ℕ) : ℤ) .LE = some b := by rw [vertexAt_ord]; exact hb
      rcases Nat.eq_zero_or_pos i with rfl | hpos
      · have ea : a = zv := by rw [eL'] at ha; simpa using ha.symm
        subst ea
        rcases List.eq_nil_or_concat m with rfl | ⟨m', y, rfl⟩
        · have eb : b = camV W n cam := by rw [eL'] at hb; simpa using hb.symm
          subst eb
          exact ⟨by simp [hz.infinite], fun _ _ => by rw [hz.p, camV_geom.2.2, T.position]; exact hm.last.symm⟩
        · have eb : b = S.toVert y := by rw [eL'] at hb; simpa using hb.symm
          subst eb
          refine ⟨by simp [hz.infinite], fun _ _ => ?_⟩
          rw [hz.p, (h.at y).1]
          have := hm.last
          rw [List.concat_eq_append, lastP_snoc] at this
          exact this.symm
      · obtain ⟨y, hy, rfl, ul, ur, e1, e2, i1, i2, hl, hr⟩ := hin i a hpos hil ha
        rw [show (i : ℤ) + 1 = ((i + 1 : ℕ) : ℤ) by push_cast; ring, vb] at e2
        cases e2
        exact ⟨by simp [(h.at y).2.1], fun _ _ => by rw [(h.at y).1]; exact hr.1.symm⟩
  obtain ⟨f, hf⟩ := key
  have := hf 0 (Nat.zero_le _)
  rw [h0] at this
  cases this
  exact hf s (by omega)

/-! ### The value in terms of the contribution -/

/-- Each point of the full path is seen from the one before, on the way from o to z. -/
def Seen (S : Site) : V3 ℝ → List Node → Spot → Prop
  | o, [], z => Sees S.Q o z.1 z.2
  | o, y :: l, z => Sees S.Q o y.1.1 y.1.2 ∧ Seen S y.1.2 l z

omit h in
theorem Told.carryV_nonneg {w : V3 ℝ} {x : Node} {y : Spot} (hw : S.Hop w x.1) (hxy : x.1.2 ≠ y.2) (hx : S.Fit x) : NonNeg (carryV S w x y) := by
  refine nonneg_smul ?_ (T.nonneg _ hx.1 _ hx.2 _ _ _ (unit_to hw.1.symm) (unit_to hxy) hw.2)
  exact mul_nonneg (mul_nonneg (abs_nonneg _) (div_nonneg (abs_nonneg _) (dot_self_nonneg _))) (snc_nonneg' _ _ _ _)

omit h T in
theorem carry_eq (i : Fin 3) (w : V3 ℝ) (x : Node) (y : Spot) : S.carry i w x y = ENNReal.ofReal (chan i (carryV S w x y)) := by
  unfold carry carryV kern
  rw [chan_smul, ← ENNReal.ofReal_mul (snc_nonneg' _ _ _ _), ← ENNReal.ofReal_mul (abs_nonneg _), ← ENNReal.ofReal_mul' (show 0 ≤ S.facing x.1.2 y from div_nonneg (abs_nonneg _) (dot_self_nonneg _))]
  congr 1
  unfold cosAt nrm
  rw [V3.dot_comm (dirOf (y.2 - x.1.2))]
  ring

omit h in
theorem Told.tail_seen (i : Fin 3) {w : V3 ℝ} {x : Node} {l : List Node} {z : Spot} (hw : S.Hop w x.1) (hl : S.Hops x.1.2 l) (hx : S.Fit x) (hfit : ∀ y ∈ l, S.Fit y) (hs : Seen S x.1.2 l z) :
    S.tail i w x l z = ENNReal.ofReal (chan i (chainV S w x l z)) * ENNReal.ofReal (chan i (S.Le z.1 z.2 (dirOf (lastP x.1.2 l - z.2)))) := by
  induction l generalizing w x with
  | nil =>
    have hs : Sees S.Q x.1.2 z.1 z.2 := hs
    simp only [tail, chainV, lastP, carry_eq, if_pos hs]
  | cons y l ih =>
    have hnn := T.carryV_nonneg hw hl.1.1 hx
    simp only [tail, chainV, lastP, if_pos hs.1]
    rw [ih hl.1 hl.2 (hfit y (by simp)) (fun y' hy' => hfit y' (by simp [hy'])) hs.2, carry_eq, chan_mul, ENNReal.ofReal_mul (chan_nonneg hnn i), mul_assoc]

omit h T in
theorem tail_unseen (i : Fin 3) {w : V3 ℝ} {x : Node} {l : List Node} {z : Spot} (hs : ¬ Seen S x.1.2 l z) : S.tail i w x l z = 0 := by
  induction l generalizing w x with
  | nil =>
    have hs : ¬ Sees S.Q x.1.2 z.1 z.2 := hs
    simp only [tail, if_neg hs]
  | cons y l ih =>
    simp only [tail]
    by_cases h1 : Sees S.Q x.1.2 y.1.1 y.1.2
    · rw [if_pos h1, ih fun c => hs ⟨h1, c⟩, mul_zero]
    · rw [if_neg h1]

omit h in
/-- The value is the contribution, on the film, if each point is seen from the one before. -/
theorem Told.whole_seen (i : Fin 3) {m : List Node} {z : Spot} (hm : S.Hops S.eye m) (hfit : ∀ y ∈ m, S.Fit y) (hLe : NonNeg (S.Le z.1 z.2 (dirOf (lastP S.eye m - z.2)))) (hs : Seen S S.eye m z) :
    S.whole i m z = S.film (dirOf (lastP z.2 m.reverse - S.eye)) * ENNReal.ofReal (chan i (wholeV S m z)) := by
  have hf : ∀ z : Spot, 0 ≤ S.facing S.eye z := fun z => div_nonneg (abs_nonneg _) (dot_self_nonneg _)
  unfold wholeV
  rw [chan_mul, ENNReal.ofReal_mul (chan_nonneg hLe i)]
  cases m with
  | nil =>
    have hs : Sees S.Q S.eye z.1 z.2 := hs
    have e : chan i (V3.all (S.We (dirOf (z.2 - S.eye)) * S.facing S.eye z)) = S.We (dirOf (z.2 - S.eye)) * S.facing S.eye z := by fin_cases i <;> rfl
    simp only [whole, firstV, List.reverse_nil, lastP, if_pos hs, e]
    rw [ENNReal.ofReal_mul (T.We0 _)]
    ring
  | cons y l =>
    have hr : lastP z.2 (y :: l).reverse = y.1.2 := by rw [List.reverse_cons, lastP_snoc]
    simp only [whole, hr, firstV, if_pos hs.1, lastP]
    rw [T.tail_seen i hm.1 hm.2 (hfit y (by simp)) (fun y' hy' => hfit y' (by simp [hy'])) hs.2, chan_smul, ENNReal.ofReal_mul (mul_nonneg (T.We0 _) (hf _)), ENNReal.ofReal_mul (T.We0 _)]
    ring

omit h T in
theorem whole_unseen (i : Fin 3) {m : List Node} {z : Spot} (hs : ¬ Seen S S.eye m z) : S.whole i m z = 0 := by
  cases m with
  | nil =>
    have hs : ¬ Sees S.Q S.eye z.1 z.2 := hs
    simp only [whole, if_neg hs]
  | cons y l =>
    simp only [whole]
    by_cases h1 : Sees S.Q S.eye y.1.1 y.1.2
    · rw [if_pos h1, tail_unseen i fun c => hs ⟨h1, c⟩, mul_zero]
    · rw [if_neg h1]

end

end Site

end LM.Transport
