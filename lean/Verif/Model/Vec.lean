import Mathlib.Algebra.Field.Defs
import Mathlib.Algebra.Module.Defs
import Mathlib.Tactic.Ring
/-
  3-vectors (Vec3 = glm::vec<3, Float>, include/lm/math.h:33-60, src and external glm semantics): componentwise operations.
  Simplification: Float is an arbitrary commutative ring / (ordered) field, so there is no rounding.
-/
namespace LM

/-- Vec3, math.h:33-60. -/
@[ext] structure V3 (K : Type) where
  x : K
  y : K
  z : K
deriving DecidableEq, Repr

namespace V3
variable {K : Type}

section Ring
variable [CommRing K]

/-- glm operators on vectors: componentwise. -/
instance : Add (V3 K) := ⟨fun a b => ⟨a.x + b.x, a.y + b.y, a.z + b.z⟩⟩
instance : Sub (V3 K) := ⟨fun a b => ⟨a.x - b.x, a.y - b.y, a.z - b.z⟩⟩
instance : Neg (V3 K) := ⟨fun a => ⟨-a.x, -a.y, -a.z⟩⟩
instance : Zero (V3 K) := ⟨⟨0, 0, 0⟩⟩
instance : Mul (V3 K) := ⟨fun a b => ⟨a.x * b.x, a.y * b.y, a.z * b.z⟩⟩
/-- scalar times vector -/
instance : SMul K (V3 K) := ⟨fun c a => ⟨c * a.x, c * a.y, c * a.z⟩⟩
/-- Vec3(v): all components equal (math.h:33-60). -/
def all (v : K) : V3 K := ⟨v, v, v⟩
/-- glm::dot (used e.g. at math.h:498). -/
def dot (a b : V3 K) : K := a.x * b.x + a.y * b.y + a.z * b.z
/-- glm::cross (used e.g. at math.h:561). -/
def cross (a b : V3 K) : V3 K := ⟨a.y * b.z - b.y * a.z, a.z * b.x - b.z * a.x, a.x * b.y - b.x * a.y⟩

@[simp] theorem add_x (a b : V3 K) : (a + b).x = a.x + b.x := rfl
@[simp] theorem add_y (a b : V3 K) : (a + b).y = a.y + b.y := rfl
@[simp] theorem add_z (a b : V3 K) : (a + b).z = a.z + b.z := rfl
@[simp] theorem sub_x (a b : V3 K) : (a - b).x = a.x - b.x := rfl
@[simp] theorem sub_y (a b : V3 K) : (a - b).y = a.y - b.y := rfl
@[simp] theorem sub_z (a b : V3 K) : (a - b).z = a.z - b.z := rfl
@[simp] theorem neg_x (a : V3 K) : (-a).x = -a.x := rfl
@[simp] theorem neg_y (a : V3 K) : (-a).y = -a.y := rfl
@[simp] theorem neg_z (a : V3 K) : (-a).z = -a.z := rfl
@[simp] theorem zero_x : (0 : V3 K).x = 0 := rfl
@[simp] theorem zero_y : (0 : V3 K).y = 0 := rfl
@[simp] theorem zero_z : (0 : V3 K).z = 0 := rfl
@[simp] theorem mul_x (a b : V3 K) : (a * b).x = a.x * b.x := rfl
@[simp] theorem mul_y (a b : V3 K) : (a * b).y = a.y * b.y := rfl
@[simp] theorem mul_z (a b : V3 K) : (a * b).z = a.z * b.z := rfl
@[simp] theorem smul_x (c : K) (a : V3 K) : (c • a).x = c * a.x := rfl
@[simp] theorem smul_y (c : K) (a : V3 K) : (c • a).y = c * a.y := rfl
@[simp] theorem smul_z (c : K) (a : V3 K) : (c • a).z = c * a.z := rfl
@[simp] theorem all_x (c : K) : (all c).x = c := rfl
@[simp] theorem all_y (c : K) : (all c).y = c := rfl
@[simp] theorem all_z (c : K) : (all c).z = c := rfl

instance : AddCommGroup (V3 K) where
  add_assoc a b c := by ext <;> simp <;> ring
  zero_add a := by ext <;> simp
  add_zero a := by ext <;> simp
  add_comm a b := by ext <;> simp <;> ring
  neg_add_cancel a := by ext <;> simp
  sub_eq_add_neg a b := by ext <;> simp <;> ring
  nsmul := nsmulRec
  zsmul := zsmulRec

instance : Module K (V3 K) where
  one_smul a := by ext <;> simp
  mul_smul a b c := by ext <;> simp <;> ring
  smul_zero a := by ext <;> simp
  smul_add a b c := by ext <;> simp <;> ring
  add_smul a b c := by ext <;> simp <;> ring
  zero_smul a := by ext <;> simp

theorem dot_comm (a b : V3 K) : dot a b = dot b a := by simp [dot]; ring
theorem dot_neg_left (a b : V3 K) : dot (-a) b = -dot a b := by simp [dot]; ring
theorem dot_neg_right (a b : V3 K) : dot a (-b) = -dot a b := by simp [dot]; ring
theorem dot_add_left (a b c : V3 K) : dot (a + b) c = dot a c + dot b c := by simp [dot]; ring
theorem dot_sub_left (a b c : V3 K) : dot (a - b) c = dot a c - dot b c := by simp [dot]; ring
theorem dot_smul_left (k : K) (a b : V3 K) : dot (k • a) b = k * dot a b := by simp [dot]; ring
theorem dot_add_right (a b c : V3 K) : dot a (b + c) = dot a b + dot a c := by simp [dot]; ring
theorem dot_sub_right (a b c : V3 K) : dot a (b - c) = dot a b - dot a c := by simp [dot]; ring
theorem dot_smul_right (k : K) (a b : V3 K) : dot a (k • b) = k * dot a b := by simp [dot]; ring

end Ring
end V3
end LM
