import Verif.Spec.Side

/-!
# What is seen from a point
-/
namespace Kigumi.Spec.Side
open Kigumi Kigumi.Spec Kigumi.Spec.Triangles

/-- The centroid of a triangle. -/
def middle (t : Tri P3) : P3 := ⟨(t.a.x + t.b.x + t.c.x) / 3, (t.a.y + t.b.y + t.c.y) / 3, (t.a.z + t.b.z + t.c.z) / 3⟩

/-- Nothing of the surface is between the two points. -/
def Visible (ts : List (Tri P3)) (p y : P3) : Prop := ∀ x, OnSegment p y x → Surface ts x → x = y

/-- From every point off the surface, the centroid of some triangle is visible. -/
def Seen (ts : List (Tri P3)) : Prop := ∀ p, ¬ Surface ts p → ∃ t ∈ ts, Visible ts p (middle t)

/-- The square of the distance of two points. -/
def sqDist (p x : P3) : ℚ := (x.x - p.x) * (x.x - p.x) + (x.y - p.y) * (x.y - p.y) + (x.z - p.z) * (x.z - p.z)

/-- Triangle number `i` has exactly one point in common with the ray from `p` through `q`, at the squared distance `d`. -/
def MeetsAt (ts : List (Tri P3)) (p q : P3) (i : Nat) (d : ℚ) : Prop := ∃ (t : Tri P3) (x : P3), ts[i]? = some t ∧ (∀ z, (In t z ∧ OnRay p q z) ↔ z = x) ∧ d = sqDist p x

/-- Two triangles are the first that the ray meets in a single point. -/
def Tied (ts : List (Tri P3)) (p q : P3) : Prop := ∃ (i j : Nat) (d : ℚ), i ≠ j ∧ MeetsAt ts p q i d ∧ MeetsAt ts p q j d ∧ ∀ k d', MeetsAt ts p q k d' → d ≤ d'

/-- The set has all points between any two of its points. -/
def ConvexSet (A : P3 → Prop) : Prop := ∀ x y z, A x → A y → OnSegment x y z → A z

end Kigumi.Spec.Side
