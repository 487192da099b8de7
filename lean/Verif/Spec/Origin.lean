import Verif.Spec.Solid

/-!
# Where the faces of a result come from
-/
namespace Kigumi.Spec.Side
open Kigumi Kigumi.Spec Kigumi.Spec.Triangles
variable {D : Type}

/-- The soup has a face with the corners `t` and the data `d`. -/
def HasFace (s : Soup P3 D) (t : Tri P3) (d : D) : Prop :=
  ∃ (i : Nat) (f : Tri Nat), s.faces[i]? = some f ∧ s.points[f.a]? = some t.a ∧ s.points[f.b]? = some t.b ∧ s.points[f.c]? = some t.c ∧ s.data[i]? = some d

/-- The triangle `p` is part of the triangle `t`; it looks into the same direction, or into the opposite one if `inv`. -/
structure PartOf (p t : Tri P3) (inv : Bool) : Prop where
  sub : ∀ x, In p x → In t x
  facing : ∃ k : ℚ, (if inv then k < 0 else 0 < k) ∧ outward p = ⟨k * (outward t).x, k * (outward t).y, k * (outward t).z⟩

/-- The value of an operator for a point that is (not) in the first operand, if `side`, or else in the second one, and that is (not) in the other one. -/
def valueAt (op : Op) (side : Bool) (this other : Bool) : Bool := if side then truth op this other else truth op other this

/-- The result of the operator grows with the operand. -/
def Grows (op : Op) (side : Bool) : Prop := (∀ y, valueAt op side false y = true → valueAt op side true y = true) ∧ ∃ y, valueAt op side false y ≠ valueAt op side true y

/-- The result of the operator shrinks when the operand grows. -/
def Shrinks (op : Op) (side : Bool) : Prop := (∀ y, valueAt op side true y = true → valueAt op side false y = true) ∧ ∃ y, valueAt op side false y ≠ valueAt op side true y

instance (op : Op) (side : Bool) : Decidable (Grows op side) := by unfold Grows; infer_instance
instance (op : Op) (side : Bool) : Decidable (Shrinks op side) := by unfold Shrinks; infer_instance

end Kigumi.Spec.Side
