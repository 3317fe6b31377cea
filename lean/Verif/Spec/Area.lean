import Verif.Spec.Density
/-
  Surface area of triangle meshes, and triangles seen from a point.
-/
namespace LM.Solid
open MeasureTheory LM LM.Surface LM.Light
open scoped ENNReal

/-- The point of a triangle with barycentric coordinates q. -/
noncomputable def triAt (t : Tri) (q : ℝ × ℝ) : V3 ℝ := t.a + q.1 • (t.b - t.a) + q.2 • (t.c - t.a)

/-- The triangle in world space. -/
noncomputable def triMap (M : Aff ℝ) (t : Tri) : Tri := ⟨M.app t.a, M.app t.b, M.app t.c⟩

/-- The vector perpendicular to a triangle, whose length is twice the area. -/
noncomputable def triCross (t : Tri) : V3 ℝ := V3.cross (t.b - t.a) (t.c - t.a)

/-- Twice the area of a triangle. -/
noncomputable def twiceArea (t : Tri) : ℝ := Real.sqrt (V3.dot (triCross t) (triCross t))

/-- Surface area on a triangle: Lebesgue measure of barycentric coordinates, times the Jacobian. -/
noncomputable def triMeasure (t : Tri) : Measure (V3 ℝ) := ENNReal.ofReal (twiceArea t) • (volume.restrict simplex).map (triAt t)

/-- Surface area on a mesh. -/
noncomputable def meshMeasure (ts : List Tri) : Measure (V3 ℝ) := (ts.map triMeasure).sum

/-- The transform scales the area of each triangle by its determinant. (Rigid motions do. Uniform scaling by s ≠ 1 does not, and the light reports a wrong density then.) -/
def ScalesArea (M : Aff ℝ) (ts : List Tri) : Prop := ∀ t ∈ ts, twiceArea (triMap M t) = |M.det| * twiceArea t

/-- The directions in which x sees the triangle. -/
def hitSet (t : Tri) (x : V3 ℝ) : Set (V3 ℝ) := {d | ∃ s : ℝ, 0 < s ∧ ∃ q ∈ simplex, x + s • d = triAt t q}

/-- Where the ray from x in direction d meets the plane of the triangle. -/
noncomputable def hitPoint (t : Tri) (x d : V3 ℝ) : V3 ℝ := x + (V3.dot (triCross t) (t.a - x) / V3.dot (triCross t) d) • d

/-- Four independent random numbers, uniform in [0,1). -/
noncomputable def uniform4 : Measure ((ℝ × ℝ) × (ℝ × ℝ)) := uniform2.prod uniform2

/-- Solid angle at g, which is projected where g has a normal. -/
noncomputable def solidAngleAt (g : Geom) : Measure (V3 ℝ) := if g.degenerated then solidAngle else projSolidAngle g.n

/-- The front side of a transformed triangle: the normal of the untransformed one, transformed as normals are. -/
noncomputable def frontNormal (M : Aff ℝ) (t : Tri) : V3 ℝ := dirOf (M.normalM (triCross t))

end LM.Solid
