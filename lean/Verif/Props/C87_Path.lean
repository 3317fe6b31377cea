import Verif.Props.C87_Chain
import Verif.Props.C86_Light
import Verif.Model.BidirRender
/-
  C87: paths as lists of points, the densities with which the points are sampled, and what the paths contribute.
-/
namespace LM.Transport
open MeasureTheory LM LM.Surface LM.Material LM.Light LM.MathF LM.Path LM.Render LM.Solid Set
open scoped ENNReal

/-- A point of a surface and a component of its material. -/
abbrev Node := Spot × ℕ

/-- The data of a scene that matter to paths. -/
structure Site where
  /-- ray queries -/
  Q : Query
  /-- the triangles, each with its primitive -/
  Fs : List (Int × Tri)
  /-- the interaction at a point of a primitive -/
  vertex : Int → V3 ℝ → SI
  /-- the components of the material of a primitive -/
  C : Int → Finset ℕ
  /-- BSDF of a component at a point, from wi to wo -/
  f : Int → ℕ → V3 ℝ → V3 ℝ → V3 ℝ → V3 ℝ
  /-- density of sampling wo (projected solid angle) -/
  P : Int → ℕ → V3 ℝ → V3 ℝ → V3 ℝ → ℝ
  /-- probability of selecting the component at a point seen from a direction -/
  pc : Int → ℕ → V3 ℝ → V3 ℝ → ℝ
  /-- position of the camera -/
  eye : V3 ℝ
  /-- its importance, and density of sampling a direction -/
  We : V3 ℝ → ℝ
  /-- value of the film at the position a direction is seen at -/
  film : V3 ℝ → ℝ≥0∞
  /-- density of sampling a point of a primitive as a point of a light (area) -/
  pA : Int → ℝ
  /-- emission of a point of a primitive into a direction -/
  Le : Int → V3 ℝ → V3 ℝ → V3 ℝ
  /-- density of sampling it (projected solid angle) -/
  PL : Int → V3 ℝ → V3 ℝ → ℝ

namespace Site
variable (S : Site)

/-- The shading normal. -/
noncomputable def nrm (x : Spot) : V3 ℝ := (S.vertex x.1 x.2).geom.n

/-- Cosine at x towards the point q. -/
noncomputable def cosAt (x : Spot) (q : V3 ℝ) : ℝ := |V3.dot (S.nrm x) (dirOf (q - x.2))|

/-- Solid angle, seen from o, per area at x. -/
noncomputable def facing (o : V3 ℝ) (x : Spot) : ℝ := |V3.dot (S.nrm x) (dirOf (x.2 - o))| / V3.dot (x.2 - o) (x.2 - o)

/-- Points x and y are not in the tangent plane of each other. -/
def Apart (x y : Spot) : Prop := V3.dot (S.nrm x) (y.2 - x.2) ≠ 0 ∧ V3.dot (S.nrm y) (y.2 - x.2) ≠ 0

/-- Density (area) of going on from x, reached from w, to the point y. -/
noncomputable def goR (w : V3 ℝ) (x : Node) (y : Spot) : ℝ := S.P x.1.1 x.2 x.1.2 (dirOf (w - x.1.2)) (dirOf (y.2 - x.1.2)) * S.cosAt x.1 y.2 * S.facing x.1.2 y

/-- Probability of the component of y, reached from o. -/
noncomputable def pickR (o : V3 ℝ) (y : Node) : ℝ := S.pc y.1.1 y.2 y.1.2 (dirOf (o - y.1.2))

/-- Density of going on from x, reached from w, to y. -/
noncomputable def linkR (w : V3 ℝ) (x y : Node) : ℝ := S.goR w x y.1 * S.pickR x.1.2 y

/-- Density of going on from x, reached from w, through the points of the list. -/
noncomputable def linksR : V3 ℝ → Node → List Node → ℝ
  | _, _, [] => 1
  | w, x, y :: l => S.linkR w x y * linksR x.1.2 y l

/-- Density of starting at the camera to the point y. -/
noncomputable def eyeR (y : Spot) : ℝ := S.We (dirOf (y.2 - S.eye)) * S.facing S.eye y

/-- Density of the eye subpath through the points of the list. -/
noncomputable def eyesR : List Node → ℝ
  | [] => 1
  | y :: l => S.eyeR y.1 * S.pickR S.eye y * S.linksR S.eye y l

/-- Density of going on from the point z of a light to y. -/
noncomputable def lampR (z y : Spot) : ℝ := S.PL z.1 z.2 (dirOf (y.2 - z.2)) * S.cosAt z y.2 * S.facing z.2 y

/-- Density of the light subpath from z through the points of the list. -/
noncomputable def lampsR (z : Spot) : List Node → ℝ
  | [] => S.pA z.1
  | y :: l => S.pA z.1 * (S.lampR z y.1 * S.pickR z.2 y) * S.linksR z.2 y l

/-- Density of going on from the last point of the eye subpath to z. -/
noncomputable def lastR : V3 ℝ → Node → List Node → Spot → ℝ
  | w, x, [], z => S.goR w x z
  | _, x, y :: l, z => lastR x.1.2 y l z
noncomputable def reachR : List Node → Spot → ℝ
  | [], z => S.eyeR z
  | y :: l, z => S.lastR S.eye y l z

/-- Density of the full path (from the camera through the points m to the point z of a light) with s points on the light subpath. -/
noncomputable def dens (m : List Node) (z : Spot) : ℕ → ℝ
  | 0 => S.eyesR m * S.reachR m z
  | s + 1 => if s ≤ m.length then S.lampsR z (m.drop (m.length - s)).reverse * S.eyesR (m.take (m.length - s)) else 0

/-- Scattering at x of what comes from y towards w, with the cosine at x, and solid angle per area at y. -/
noncomputable def carry (i : Fin 3) (w : V3 ℝ) (x : Node) (y : Spot) : ℝ≥0∞ :=
  kern S.vertex S.f i .EL x.2 x.1 (dirOf (w - x.1.2)) (dirOf (y.2 - x.1.2)) * ENNReal.ofReal (S.facing x.1.2 y)

open Classical in
/-- What the light of z contributes through the points from x on, x seen from w; 0 if some point is not seen from the one before. -/
noncomputable def tail (i : Fin 3) : V3 ℝ → Node → List Node → Spot → ℝ≥0∞
  | w, x, [], z => if Sees S.Q x.1.2 z.1 z.2 then S.carry i w x z * ENNReal.ofReal (chan i (S.Le z.1 z.2 (dirOf (x.1.2 - z.2)))) else 0
  | w, x, y :: l, z => if Sees S.Q x.1.2 y.1.1 y.1.2 then S.carry i w x y.1 * tail i x.1.2 y l z else 0

open Classical in
/-- What the light of z contributes to the film through the points m. -/
noncomputable def whole (i : Fin 3) : List Node → Spot → ℝ≥0∞
  | [], z => if Sees S.Q S.eye z.1 z.2 then S.film (dirOf (z.2 - S.eye)) * ENNReal.ofReal (S.We (dirOf (z.2 - S.eye))) * ENNReal.ofReal (S.facing S.eye z) * ENNReal.ofReal (chan i (S.Le z.1 z.2 (dirOf (S.eye - z.2)))) else 0
  | y :: l, z => if Sees S.Q S.eye y.1.1 y.1.2 then S.film (dirOf (y.1.2 - S.eye)) * ENNReal.ofReal (S.We (dirOf (y.1.2 - S.eye))) * ENNReal.ofReal (S.facing S.eye y.1) * S.tail i S.eye y l z else 0

/-- Area, for each component. -/
noncomputable def area : Measure Node := (S.Fs.map fun g => ∑ c ∈ S.C g.1, (triMeasure g.2).map fun p => ((g.1, p), c)).sum

open Classical in
/-- Density of going on from x, reached from w, to the point y seen from x. -/
noncomputable def lk (w : V3 ℝ) (x y : Node) : ℝ≥0∞ := if Sees S.Q x.1.2 y.1.1 y.1.2 then ENNReal.ofReal (S.linkR w x y) else 0

/-- Density of going on through the points of the list, each seen from the one before. -/
noncomputable def lks : V3 ℝ → Node → List Node → ℝ≥0∞
  | _, _, [] => 1
  | w, x, y :: l => S.lk w x y * lks x.1.2 y l

open Classical in
/-- Density of the first point of the eye subpath. -/
noncomputable def eyeK (y : Node) : ℝ≥0∞ := if Sees S.Q S.eye y.1.1 y.1.2 then ENNReal.ofReal (S.eyeR y.1 * S.pickR S.eye y) else 0

/-- Density of the eye subpath. -/
noncomputable def eyes : List Node → ℝ≥0∞
  | [] => 1
  | y :: l => S.eyeK y * S.lks S.eye y l

open Classical in
/-- Density of the second point of the light subpath. -/
noncomputable def lampK (z : Spot) (y : Node) : ℝ≥0∞ := if Sees S.Q z.2 y.1.1 y.1.2 then ENNReal.ofReal (S.lampR z y.1 * S.pickR z.2 y) else 0

/-- Density of the light subpath. -/
noncomputable def lamps (z : Spot) : List Node → ℝ≥0∞
  | [] => ENNReal.ofReal (S.pA z.1)
  | y :: l => ENNReal.ofReal (S.pA z.1) * (S.lampK z y * S.lks z.2 y l)

/-- What is required of the data of a scene. -/
structure Sound : Prop where
  faceted : Faceted S.Q S.Fs S.vertex
  flat : ∀ j ∈ S.Fs.map (·.1), ∀ p, (S.vertex j p).geom.n = (S.vertex j p).geom.gn
  normal : ∀ j, Measurable fun p => (S.vertex j p).geom.n
  f : ∀ j c, Measurable fun q : V3 ℝ × V3 ℝ × V3 ℝ => S.f j c q.1 q.2.1 q.2.2
  P : ∀ j c, Measurable fun q : V3 ℝ × V3 ℝ × V3 ℝ => S.P j c q.1 q.2.1 q.2.2
  pc : ∀ j c, Measurable fun q : V3 ℝ × V3 ℝ => S.pc j c q.1 q.2
  We : Measurable S.We
  film : Measurable S.film
  Le : ∀ j, Measurable fun q : V3 ℝ × V3 ℝ => S.Le j q.1 q.2
  PL : ∀ j, Measurable fun q : V3 ℝ × V3 ℝ => S.PL j q.1 q.2

variable {S}

/-! ### Measurability -/

theorem measurable_of_spot {α β : Type} [MeasurableSpace α] [MeasurableSpace β] {F : Spot × α → β} (h : ∀ j, Measurable fun q : V3 ℝ × α => F ((j, q.1), q.2)) : Measurable F := by
  have h1 : Measurable fun q : Int × V3 ℝ × α => F ((q.1, q.2.1), q.2.2) := measurable_from_prod_countable_right h
  exact h1.comp ((measurable_fst.comp measurable_fst).prodMk ((measurable_snd.comp measurable_fst).prodMk measurable_snd))

theorem measurable_of_node {α β : Type} [MeasurableSpace α] [MeasurableSpace β] {F : Node × α → β} (h : ∀ j c, Measurable fun q : V3 ℝ × α => F (((j, q.1), c), q.2)) : Measurable F := by
  have h1 : Measurable fun q : ℕ × Spot × α => F ((q.2.1, q.1), q.2.2) := measurable_from_prod_countable_right fun c => measurable_of_spot (F := fun q : Spot × α => F ((q.1, c), q.2)) fun j => h j c
  exact h1.comp ((measurable_snd.comp measurable_fst).prodMk ((measurable_fst.comp measurable_fst).prodMk measurable_snd))

theorem Sound.m_nrm (h : S.Sound) : Measurable S.nrm := by
  have := measurable_of_spot (α := Unit) (F := fun q => S.nrm q.1) fun j => (h.normal j).comp measurable_fst
  exact this.comp (measurable_id.prodMk (measurable_const (a := ())))

theorem Sound.m_P (h : S.Sound) : Measurable fun q : Node × V3 ℝ × V3 ℝ => S.P q.1.1.1 q.1.2 q.1.1.2 q.2.1 q.2.2 := measurable_of_node (F := fun q : Node × V3 ℝ × V3 ℝ => S.P q.1.1.1 q.1.2 q.1.1.2 q.2.1 q.2.2) fun j c => h.P j c
theorem Sound.m_pc (h : S.Sound) : Measurable fun q : Node × V3 ℝ => S.pc q.1.1.1 q.1.2 q.1.1.2 q.2 := measurable_of_node (F := fun q : Node × V3 ℝ => S.pc q.1.1.1 q.1.2 q.1.1.2 q.2) fun j c => h.pc j c
theorem Sound.m_Le (h : S.Sound) : Measurable fun q : Spot × V3 ℝ => S.Le q.1.1 q.1.2 q.2 := measurable_of_spot (F := fun q : Spot × V3 ℝ => S.Le q.1.1 q.1.2 q.2) fun j => h.Le j
theorem Sound.m_PL (h : S.Sound) : Measurable fun q : Spot × V3 ℝ => S.PL q.1.1 q.1.2 q.2 := measurable_of_spot (F := fun q : Spot × V3 ℝ => S.PL q.1.1 q.1.2 q.2) fun j => h.PL j
theorem m_pA : Measurable fun z : Spot => S.pA z.1 := (measurable_of_countable S.pA).comp measurable_fst

theorem Sound.m_kern (h : S.Sound) (i : Fin 3) (dir : TransDir) : Measurable fun q : Node × V3 ℝ × V3 ℝ => kern S.vertex S.f i dir q.1.2 q.1.1 q.2.1 q.2.2 := by
  refine measurable_of_node (F := fun q : Node × V3 ℝ × V3 ℝ => kern S.vertex S.f i dir q.1.2 q.1.1 q.2.1 q.2.2) fun j c => ?_
  unfold kern
  have n1 : Measurable fun q : V3 ℝ × V3 ℝ × V3 ℝ => (S.vertex j q.1).geom.n := (h.normal j).comp measurable_fst
  have wo : Measurable fun q : V3 ℝ × V3 ℝ × V3 ℝ => q.2.2 := measurable_snd.comp measurable_snd
  exact (continuous_abs.measurable.comp (measurable_dot3 wo n1)).ennreal_ofReal.mul ((measurable_snc' (g := fun p => (S.vertex j p).geom) (h.normal j) (h.faceted.gn j) dir).ennreal_ofReal.mul ((measurable_chan i).comp (h.f j c)).ennreal_ofReal)

theorem Sound.m_sees (h : S.Sound) : MeasurableSet {q : V3 ℝ × Spot | Sees S.Q q.1 q.2.1 q.2.2} := by
  have e : {q : V3 ℝ × Spot | Sees S.Q q.1 q.2.1 q.2.2} = ⋃ j : Int, ({q | q.2.1 = j} ∩ {q | Sees S.Q q.1 j q.2.2}) := by
    ext q
    simp
  rw [e]
  refine MeasurableSet.iUnion fun j => MeasurableSet.inter ?_ ?_
  · exact (measurable_fst.comp measurable_snd) (measurableSet_singleton j)
  · exact (measurable_fst.prodMk (measurable_snd.comp measurable_snd)) (h.faceted.measurable_sees j)

theorem measurable_dirTo {α : Type} [MeasurableSpace α] {a b : α → V3 ℝ} (ha : Measurable a) (hb : Measurable b) : Measurable fun x => dirOf (b x - a x) := measurable_dirOf.comp (measurable_sub3' hb ha)

theorem measurable_at3 {α X D β : Type} [MeasurableSpace α] [MeasurableSpace X] [MeasurableSpace D] [MeasurableSpace β] {K : X → D → D → β} (hK : Measurable fun q : X × D × D => K q.1 q.2.1 q.2.2) {x : α → X} {a b : α → D}
    (hx : Measurable x) (ha : Measurable a) (hb : Measurable b) : Measurable fun t => K (x t) (a t) (b t) := hK.comp (hx.prodMk (ha.prodMk hb))

section
variable {α : Type} [MeasurableSpace α] {o w : α → V3 ℝ} {x y : α → Node} {z u : α → Spot}

theorem Sound.m_facing (h : S.Sound) (ho : Measurable o) (hz : Measurable z) : Measurable fun a => S.facing (o a) (z a) := by
  have hp : Measurable fun a => (z a).2 := measurable_snd.comp hz
  have hd : Measurable fun a => (z a).2 - o a := measurable_sub3' hp ho
  exact (continuous_abs.measurable.comp (measurable_dot3 (h.m_nrm.comp hz) (measurable_dirOf.comp hd))).div (measurable_dot3 hd hd)

theorem Sound.m_cosAt (h : S.Sound) (hz : Measurable z) (ho : Measurable o) : Measurable fun a => S.cosAt (z a) (o a) :=
  continuous_abs.measurable.comp (measurable_dot3 (h.m_nrm.comp hz) (measurable_dirTo (measurable_snd.comp hz) ho))

theorem Sound.m_goR (h : S.Sound) (hw : Measurable w) (hx : Measurable x) (hz : Measurable z) : Measurable fun a => S.goR (w a) (x a) (z a) := by
  have hs : Measurable fun a => (x a).1 := measurable_fst.comp hx
  have hp : Measurable fun a => (x a).1.2 := measurable_snd.comp hs
  have hq : Measurable fun a => (z a).2 := measurable_snd.comp hz
  have h1 : Measurable fun a => S.P (x a).1.1 (x a).2 (x a).1.2 (dirOf (w a - (x a).1.2)) (dirOf ((z a).2 - (x a).1.2)) := h.m_P.comp (hx.prodMk ((measurable_dirTo hp hw).prodMk (measurable_dirTo hp hq)))
  exact (h1.mul (h.m_cosAt hs hq)).mul (h.m_facing hp hz)

theorem Sound.m_pickR (h : S.Sound) (ho : Measurable o) (hy : Measurable y) : Measurable fun a => S.pickR (o a) (y a) := by
  have hp : Measurable fun a => (y a).1.2 := measurable_snd.comp (measurable_fst.comp hy)
  exact h.m_pc.comp (hy.prodMk (measurable_dirTo hp ho))

theorem Sound.m_linkR (h : S.Sound) (hw : Measurable w) (hx : Measurable x) (hy : Measurable y) : Measurable fun a => S.linkR (w a) (x a) (y a) :=
  (h.m_goR hw hx (measurable_fst.comp hy)).mul (h.m_pickR (measurable_snd.comp (measurable_fst.comp hx)) hy)

theorem Sound.m_eyeR (h : S.Sound) (hz : Measurable z) : Measurable fun a => S.eyeR (z a) :=
  (h.We.comp (measurable_dirTo measurable_const (measurable_snd.comp hz))).mul (h.m_facing measurable_const hz)

theorem Sound.m_lampR (h : S.Sound) (hu : Measurable u) (hz : Measurable z) : Measurable fun a => S.lampR (u a) (z a) := by
  have hp : Measurable fun a => (u a).2 := measurable_snd.comp hu
  have hq : Measurable fun a => (z a).2 := measurable_snd.comp hz
  have h1 : Measurable fun a => S.PL (u a).1 (u a).2 (dirOf ((z a).2 - (u a).2)) := h.m_PL.comp (hu.prodMk (measurable_dirTo hp hq))
  exact (h1.mul (h.m_cosAt hu hq)).mul (h.m_facing hp hz)

theorem Sound.m_seen (h : S.Sound) (ho : Measurable o) (hz : Measurable z) : MeasurableSet {a | Sees S.Q (o a) (z a).1 (z a).2} := (ho.prodMk hz) h.m_sees

theorem Sound.m_lk (h : S.Sound) (hw : Measurable w) (hx : Measurable x) (hy : Measurable y) : Measurable fun a => S.lk (w a) (x a) (y a) := by
  classical
  unfold lk
  exact Measurable.ite (h.m_seen (measurable_snd.comp (measurable_fst.comp hx)) (measurable_fst.comp hy)) (h.m_linkR hw hx hy).ennreal_ofReal measurable_const

theorem Sound.m_eyeK (h : S.Sound) (hy : Measurable y) : Measurable fun a => S.eyeK (y a) := by
  classical
  unfold eyeK
  exact Measurable.ite (h.m_seen measurable_const (measurable_fst.comp hy)) ((h.m_eyeR (measurable_fst.comp hy)).mul (h.m_pickR measurable_const hy)).ennreal_ofReal measurable_const

theorem Sound.m_lampK (h : S.Sound) (hz : Measurable z) (hy : Measurable y) : Measurable fun a => S.lampK (z a) (y a) := by
  classical
  unfold lampK
  exact Measurable.ite (h.m_seen (measurable_snd.comp hz) (measurable_fst.comp hy)) ((h.m_lampR hz (measurable_fst.comp hy)).mul (h.m_pickR (measurable_snd.comp hz) hy)).ennreal_ofReal measurable_const

attribute [local irreducible] kern in
theorem Sound.m_carry (h : S.Sound) (i : Fin 3) (hw : Measurable w) (hx : Measurable x) (hz : Measurable z) : Measurable fun a => S.carry i (w a) (x a) (z a) := by
  have hp : Measurable fun a => (x a).1.2 := measurable_snd.comp (measurable_fst.comp hx)
  have hq : Measurable fun a => (z a).2 := measurable_snd.comp hz
  have h1 := measurable_at3 (K := fun x a b => kern S.vertex S.f i .EL x.2 x.1 a b) (h.m_kern i .EL) hx (measurable_dirTo hp hw) (measurable_dirTo hp hq)
  have h2 := (h.m_facing hp hz).ennreal_ofReal
  unfold carry
  exact h1.mul h2

theorem Sound.m_light (h : S.Sound) (i : Fin 3) (hz : Measurable z) (ho : Measurable o) : Measurable fun a => ENNReal.ofReal (chan i (S.Le (z a).1 (z a).2 (dirOf (o a - (z a).2)))) := by
  have h1 : Measurable fun a => S.Le (z a).1 (z a).2 (dirOf (o a - (z a).2)) := h.m_Le.comp (hz.prodMk (measurable_dirTo (measurable_snd.comp hz) ho))
  exact ((measurable_chan i).comp h1).ennreal_ofReal

end

/-! ### Functions of lists -/

section
open Chain
variable {α : Type} [MeasurableSpace α] {w : α → V3 ℝ} {x : α → Node} {z : α → Spot} {l : α → List Node}

theorem Sound.m_linksR (h : S.Sound) (hw : Measurable w) (hx : Measurable x) (hl : Measurable l) : Measurable fun a => S.linksR (w a) (x a) (l a) := by
  have : Measurable fun q : (V3 ℝ × Node) × List Node => S.linksR q.1.1 q.1.2 q.2 := by
    refine measurable_rec (F := fun q : (V3 ℝ × Node) × List Node => S.linksR q.1.1 q.1.2 q.2) measurable_const fun n ih => ?_
    have hx' : Measurable fun q : (V3 ℝ × Node) × Node × (Fin n → Node) => q.1.2 := measurable_snd.comp measurable_fst
    have hy' : Measurable fun q : (V3 ℝ × Node) × Node × (Fin n → Node) => q.2.1 := measurable_fst.comp measurable_snd
    have h1 := h.m_linkR (w := fun q : (V3 ℝ × Node) × Node × (Fin n → Node) => q.1.1) (measurable_fst.comp measurable_fst) hx' hy'
    exact h1.mul (ih.comp (((measurable_snd.comp (measurable_fst.comp hx')).prodMk hy').prodMk (measurable_snd.comp measurable_snd)))
  exact this.comp ((hw.prodMk hx).prodMk hl)

theorem Sound.m_lks (h : S.Sound) (hw : Measurable w) (hx : Measurable x) (hl : Measurable l) : Measurable fun a => S.lks (w a) (x a) (l a) := by
  have : Measurable fun q : (V3 ℝ × Node) × List Node => S.lks q.1.1 q.1.2 q.2 := by
    refine measurable_rec (F := fun q : (V3 ℝ × Node) × List Node => S.lks q.1.1 q.1.2 q.2) measurable_const fun n ih => ?_
    have hx' : Measurable fun q : (V3 ℝ × Node) × Node × (Fin n → Node) => q.1.2 := measurable_snd.comp measurable_fst
    have hy' : Measurable fun q : (V3 ℝ × Node) × Node × (Fin n → Node) => q.2.1 := measurable_fst.comp measurable_snd
    have h1 := h.m_lk (w := fun q : (V3 ℝ × Node) × Node × (Fin n → Node) => q.1.1) (measurable_fst.comp measurable_fst) hx' hy'
    exact h1.mul (ih.comp (((measurable_snd.comp (measurable_fst.comp hx')).prodMk hy').prodMk (measurable_snd.comp measurable_snd)))
  exact this.comp ((hw.prodMk hx).prodMk hl)

theorem Sound.m_eyesR (h : S.Sound) (hl : Measurable l) : Measurable fun a => S.eyesR (l a) := by
  have : Measurable fun q : List Node => S.eyesR q := by
    refine measurable_rec' (F := fun q : List Node => S.eyesR q) fun n _ => ?_
    have hy : Measurable fun q : Node × (Fin n → Node) => q.1 := measurable_fst
    exact ((h.m_eyeR (measurable_fst.comp hy)).mul (h.m_pickR measurable_const hy)).mul (h.m_linksR measurable_const hy ((measurable_ofFn n).comp measurable_snd))
  exact this.comp hl

theorem Sound.m_eyes (h : S.Sound) (hl : Measurable l) : Measurable fun a => S.eyes (l a) := by
  have : Measurable fun q : List Node => S.eyes q := by
    refine measurable_rec' (F := fun q : List Node => S.eyes q) fun n _ => ?_
    have hy : Measurable fun q : Node × (Fin n → Node) => q.1 := measurable_fst
    exact (h.m_eyeK hy).mul (h.m_lks measurable_const hy ((measurable_ofFn n).comp measurable_snd))
  exact this.comp hl

theorem Sound.m_lampsR (h : S.Sound) (hz : Measurable z) (hl : Measurable l) : Measurable fun a => S.lampsR (z a) (l a) := by
  have : Measurable fun q : Spot × List Node => S.lampsR q.1 q.2 := by
    refine measurable_rec (F := fun q : Spot × List Node => S.lampsR q.1 q.2) m_pA fun n _ => ?_
    have hy : Measurable fun q : Spot × Node × (Fin n → Node) => q.2.1 := measurable_fst.comp measurable_snd
    have hz' : Measurable fun q : Spot × Node × (Fin n → Node) => q.1 := measurable_fst
    have hz2 : Measurable fun q : Spot × Node × (Fin n → Node) => q.1.2 := measurable_snd.comp measurable_fst
    exact ((m_pA.comp hz').mul ((h.m_lampR hz' (measurable_fst.comp hy)).mul (h.m_pickR hz2 hy))).mul (h.m_linksR hz2 hy ((measurable_ofFn n).comp (measurable_snd.comp measurable_snd)))
  exact this.comp (hz.prodMk hl)

theorem Sound.m_lamps (h : S.Sound) (hz : Measurable z) (hl : Measurable l) : Measurable fun a => S.lamps (z a) (l a) := by
  have : Measurable fun q : Spot × List Node => S.lamps q.1 q.2 := by
    refine measurable_rec (F := fun q : Spot × List Node => S.lamps q.1 q.2) m_pA.ennreal_ofReal fun n _ => ?_
    have hy : Measurable fun q : Spot × Node × (Fin n → Node) => q.2.1 := measurable_fst.comp measurable_snd
    have hz' : Measurable fun q : Spot × Node × (Fin n → Node) => q.1 := measurable_fst
    have hz2 : Measurable fun q : Spot × Node × (Fin n → Node) => q.1.2 := measurable_snd.comp measurable_fst
    exact (m_pA.comp hz').ennreal_ofReal.mul ((h.m_lampK hz' hy).mul (h.m_lks hz2 hy ((measurable_ofFn n).comp (measurable_snd.comp measurable_snd))))
  exact this.comp (hz.prodMk hl)

theorem Sound.m_reachR (h : S.Sound) (hl : Measurable l) (hz : Measurable z) : Measurable fun a => S.reachR (l a) (z a) := by
  have h1 : Measurable fun q : (V3 ℝ × Node × Spot) × List Node => S.lastR q.1.1 q.1.2.1 q.2 q.1.2.2 := by
    refine measurable_rec (F := fun q : (V3 ℝ × Node × Spot) × List Node => S.lastR q.1.1 q.1.2.1 q.2 q.1.2.2) ?_ fun n ih => ?_
    · exact h.m_goR measurable_fst (measurable_fst.comp measurable_snd) (measurable_snd.comp measurable_snd)
    · have hx' : Measurable fun q : (V3 ℝ × Node × Spot) × Node × (Fin n → Node) => q.1.2.1 := measurable_fst.comp (measurable_snd.comp measurable_fst)
      have hz' : Measurable fun q : (V3 ℝ × Node × Spot) × Node × (Fin n → Node) => q.1.2.2 := measurable_snd.comp (measurable_snd.comp measurable_fst)
      have hy' : Measurable fun q : (V3 ℝ × Node × Spot) × Node × (Fin n → Node) => q.2.1 := measurable_fst.comp measurable_snd
      exact ih.comp (((measurable_snd.comp (measurable_fst.comp hx')).prodMk (hy'.prodMk hz')).prodMk (measurable_snd.comp measurable_snd))
  have : Measurable fun q : Spot × List Node => S.reachR q.2 q.1 := by
    refine measurable_rec (F := fun q : Spot × List Node => S.reachR q.2 q.1) (h.m_eyeR measurable_id) fun n _ => ?_
    have hy : Measurable fun q : Spot × Node × (Fin n → Node) => q.2.1 := measurable_fst.comp measurable_snd
    exact h1.comp ((measurable_const.prodMk (hy.prodMk measurable_fst)).prodMk ((measurable_ofFn n).comp (measurable_snd.comp measurable_snd)))
  exact this.comp (hz.prodMk hl)

theorem Sound.m_tail (h : S.Sound) (i : Fin 3) (hw : Measurable w) (hx : Measurable x) (hl : Measurable l) (hz : Measurable z) : Measurable fun a => S.tail i (w a) (x a) (l a) (z a) := by
  classical
  have h1 : Measurable fun q : (V3 ℝ × Node × Spot) × List Node => S.tail i q.1.1 q.1.2.1 q.2 q.1.2.2 := by
    refine measurable_rec (F := fun q : (V3 ℝ × Node × Spot) × List Node => S.tail i q.1.1 q.1.2.1 q.2 q.1.2.2) ?_ fun n ih => ?_
    · have hx' : Measurable fun q : V3 ℝ × Node × Spot => q.2.1 := measurable_fst.comp measurable_snd
      have hz' : Measurable fun q : V3 ℝ × Node × Spot => q.2.2 := measurable_snd.comp measurable_snd
      have hp : Measurable fun q : V3 ℝ × Node × Spot => q.2.1.1.2 := measurable_snd.comp (measurable_fst.comp hx')
      simp only [tail]
      exact Measurable.ite (h.m_seen hp hz') ((h.m_carry i measurable_fst hx' hz').mul (h.m_light i hz' hp)) measurable_const
    · have hx' : Measurable fun q : (V3 ℝ × Node × Spot) × Node × (Fin n → Node) => q.1.2.1 := measurable_fst.comp (measurable_snd.comp measurable_fst)
      have hz' : Measurable fun q : (V3 ℝ × Node × Spot) × Node × (Fin n → Node) => q.1.2.2 := measurable_snd.comp (measurable_snd.comp measurable_fst)
      have hy' : Measurable fun q : (V3 ℝ × Node × Spot) × Node × (Fin n → Node) => q.2.1 := measurable_fst.comp measurable_snd
      have hw' : Measurable fun q : (V3 ℝ × Node × Spot) × Node × (Fin n → Node) => q.1.1 := measurable_fst.comp measurable_fst
      have hp : Measurable fun q : (V3 ℝ × Node × Spot) × Node × (Fin n → Node) => q.1.2.1.1.2 := measurable_snd.comp (measurable_fst.comp hx')
      have hy1 : Measurable fun q : (V3 ℝ × Node × Spot) × Node × (Fin n → Node) => q.2.1.1 := measurable_fst.comp hy'
      simp only [tail]
      exact Measurable.ite (h.m_seen hp hy1) ((h.m_carry i hw' hx' hy1).mul (ih.comp ((hp.prodMk (hy'.prodMk hz')).prodMk (measurable_snd.comp measurable_snd)))) measurable_const
  exact h1.comp ((hw.prodMk (hx.prodMk hz)).prodMk hl)

theorem Sound.m_first (h : S.Sound) {z : α → Spot} (hz : Measurable z) : Measurable fun a => S.film (dirOf ((z a).2 - S.eye)) * ENNReal.ofReal (S.We (dirOf ((z a).2 - S.eye))) * ENNReal.ofReal (S.facing S.eye (z a)) := by
  have hd : Measurable fun a => dirOf ((z a).2 - S.eye) := measurable_dirTo measurable_const (measurable_snd.comp hz)
  exact ((h.film.comp hd).mul (h.We.comp hd).ennreal_ofReal).mul (h.m_facing measurable_const hz).ennreal_ofReal

theorem Sound.m_whole (h : S.Sound) (i : Fin 3) (hl : Measurable l) (hz : Measurable z) : Measurable fun a => S.whole i (l a) (z a) := by
  classical
  have : Measurable fun q : Spot × List Node => S.whole i q.2 q.1 := by
    refine measurable_rec (F := fun q : Spot × List Node => S.whole i q.2 q.1) ?_ fun n _ => ?_
    · simp only [whole]
      exact Measurable.ite (h.m_seen measurable_const measurable_id) ((h.m_first measurable_id).mul (h.m_light i measurable_id measurable_const)) measurable_const
    · have hy : Measurable fun q : Spot × Node × (Fin n → Node) => q.2.1 := measurable_fst.comp measurable_snd
      have hy1 : Measurable fun q : Spot × Node × (Fin n → Node) => q.2.1.1 := measurable_fst.comp hy
      simp only [whole]
      exact Measurable.ite (h.m_seen measurable_const hy1) ((h.m_first hy1).mul (h.m_tail i measurable_const hy ((measurable_ofFn n).comp (measurable_snd.comp measurable_snd)) measurable_fst)) measurable_const
  exact this.comp (hz.prodMk hl)

/-- The density of a strategy, for paths with k points. -/
theorem Sound.m_dens (h : S.Sound) (hl : Measurable l) (hz : Measurable z) (s : ℕ) : Measurable fun a => S.dens (l a) (z a) s := by
  cases s with
  | zero => exact (h.m_eyesR hl).mul (h.m_reachR hl hz)
  | succ s =>
    have : Measurable fun q : Spot × List Node => S.dens q.2 q.1 (s + 1) := by
      refine measurable_prod_list fun n => ?_
      simp only [dens, List.length_ofFn]
      by_cases hs : s ≤ n
      · simp only [if_pos hs]
        have ho : Measurable fun q : Spot × (Fin n → Node) => List.ofFn q.2 := (measurable_ofFn n).comp measurable_snd
        exact (h.m_lampsR measurable_fst (measurable_reverse.comp ((measurable_drop _).comp ho))).mul (h.m_eyesR ((measurable_take _).comp ho))
      · simp only [if_neg hs]
        exact measurable_const
    exact this.comp (hz.prodMk hl)

end

/-! ### Area -/

theorem embedding_node (j : Int) (c : ℕ) : MeasurableEmbedding fun p : V3 ℝ => ((j, p), c) := by
  have h1 : MeasurableEmbedding fun p : V3 ℝ => (j, p) := measurableEmbedding_prodMk_left j
  have h2 : MeasurableEmbedding fun x : Spot => (x, c) := by
    refine ⟨fun x y h => (Prod.mk.injEq _ _ _ _ ▸ h).1, measurable_id.prodMk measurable_const, fun {t} ht => ?_⟩
    have : (fun x : Spot => (x, c)) '' t = t ×ˢ {c} := by
      ext ⟨x, d⟩
      constructor
      · rintro ⟨a, ha, e⟩
        injection e with e1 e2
        exact ⟨e1 ▸ ha, e2.symm⟩
      · rintro ⟨hx, hd⟩
        exact ⟨x, hx, by rw [show d = c from hd]⟩
    rw [this]
    exact ht.prod (measurableSet_singleton c)
  exact h2.comp h1

theorem lintegral_area (F : Node → ℝ≥0∞) : ∫⁻ y, F y ∂S.area = (S.Fs.map fun g => ∑ c ∈ S.C g.1, ∫⁻ p, F ((g.1, p), c) ∂triMeasure g.2).sum := by
  unfold area
  rw [lintegral_map_sum]
  congr 1
  refine List.map_congr_left fun g _ => ?_
  rw [lintegral_finset_sum_measure]
  exact Finset.sum_congr rfl fun c _ => (embedding_node g.1 c).lintegral_map _

/-- What holds at almost all points of each triangle holds almost everywhere. -/
theorem area_ae {P : Node → Prop} (h : ∀ g ∈ S.Fs, ∀ c ∈ S.C g.1, ∀ᵐ p ∂triMeasure g.2, P ((g.1, p), c)) : ∀ᵐ y ∂S.area, P y := by
  refine ae_map_sum _ _ _ fun g hg => ?_
  rw [ae_finsetSum_measure_iff]
  exact fun c hc => ((embedding_node g.1 c).ae_map_iff).mpr (h g hg c hc)

instance area_sfinite : SFinite S.area := by
  unfold area
  induction S.Fs with
  | nil => simp only [List.map_nil, List.sum_nil]; infer_instance
  | cons g l ih => simp only [List.map_cons, List.sum_cons]; infer_instance

end Site

end LM.Transport
