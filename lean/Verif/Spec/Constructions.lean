import Verif.Spec.Triangles

/-!
# Intersection points

What the constructions of the geometry kernel promise, and when two pairs of simplices are the same.
-/
namespace Kigumi.Spec.Triangles
open Kigumi.Spec

/-- `x` is on the line through `a` and `b`. -/
def OnLine (a b x : P3) : Prop := ∃ s t : ℚ, s + t = 1 ∧ x = ⟨s * a.x + t * b.x, s * a.y + t * b.y, s * a.z + t * b.z⟩

/-- `x` is in the plane through `a`, `b` and `c`. -/
def InPlane (a b c x : P3) : Prop := ∃ u v w : ℚ, u + v + w = 1 ∧ x = combo u v w a b c

/-- `x` is the only point that satisfies both. -/
def OnlyCommon (A B : P3 → Prop) (x : P3) : Prop := A x ∧ B x ∧ ∀ y, A y → B y → y = x

/-- The construction of the common point of two lines. -/
def LineLine (f : P3 → P3 → P3 → P3 → P3) : Prop :=
  ∀ a b p q x, a ≠ b → p ≠ q → OnlyCommon (OnLine a b) (OnLine p q) x → f a b p q = x

/-- The construction of the common point of a plane and a line; a plane needs three points that are not all on one line. -/
def PlaneLine (f : P3 → P3 → P3 → P3 → P3 → P3) : Prop :=
  ∀ a b c p q x, (∀ u v, ¬ (OnLine u v a ∧ OnLine u v b ∧ OnLine u v c)) → p ≠ q → OnlyCommon (InPlane a b c) (OnLine p q) x → f a b c p q = x

/-- The ids of the vertices of the simplex given by the bits `off`, `off + 1`, `off + 2` of a code. -/
def vertices (off code a b c : Nat) : List Nat :=
  (if code.testBit off then [a] else []) ++ (if code.testBit (off + 1) then [b] else []) ++ (if code.testBit (off + 2) then [c] else [])

/-- The same vertices, in any order. -/
def SameSet (l m : List Nat) : Prop := ∀ i, i ∈ l ↔ i ∈ m

/-- The same two simplices: straight or exchanged. -/
def SamePair (l r l' r' : List Nat) : Prop := (SameSet l l' ∧ SameSet r r') ∨ (SameSet l r' ∧ SameSet r l')

end Kigumi.Spec.Triangles
