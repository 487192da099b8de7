import Verif.Spec.Triangulation
import Mathlib.Algebra.Order.Group.Abs

/-!
# Ties in Delaunay triangulations

Four points on a circle may be triangulated in two ways. CGAL decides by an order of the points of the plane: the circle through three points does not contain a fourth point of the circle that is greater than they are, or, more generally, the greatest of the four
is raised a little.
-/
namespace Kigumi.Spec.Side
open Kigumi Kigumi.Spec Kigumi.Spec.Triangles


/-- The segments `ab` and `cd` have a point in common. -/
def Opposed (a b c d : P3) : Prop := ∃ x, OnSegment a b x ∧ OnSegment c d x

/-- Four points that have the same distance from some point (points of a plane: they are on a circle). -/
def Cocircular (w x y z : P3) : Prop := ∃ o, dist2 o w = dist2 o x ∧ dist2 o x = dist2 o y ∧ dist2 o y = dist2 o z

/-- The triangle `p` and the point `v` on its circle are in accordance with the order: the greatest of the four points is `v`, or separated from `v` by the others. -/
def Tie (lt : P3 → P3 → Prop) (p : Tri P3) (v : P3) : Prop := ∀ a b c, Match ⟨a, b, c⟩ p → lt b a → lt c a → lt v a → Opposed a v b c

/-- The triangulation breaks ties by the order: wherever a vertex on the circle of a triangle is visible from its interior. -/
def TiesBy (lt : P3 → P3 → Prop) (t : Tri P3) (V : P3 → Prop) (S : P3 → P3 → Prop) (ps : List (Tri P3)) : Prop :=
  ∀ p ∈ ps, ∀ v, V v ∨ v ∈ t.toList → v ∉ p.toList → ∀ y, Inner p y → Sees S y v → Cocircular p.a p.b p.c v → Tie lt p v

/-- The point is in the plane of the triangle. -/
def LiesIn (t : Tri P3) (x : P3) : Prop := (outward t).x * (x.x - t.a.x) + (outward t).y * (x.y - t.a.y) + (outward t).z * (x.z - t.a.z) = 0

/-- The normals are parallel, and point into the same or into opposite directions according to the sign of `k`. -/
def Multiple (k : ℚ) (t u : Tri P3) : Prop := outward u = ⟨k * (outward t).x, k * (outward t).y, k * (outward t).z⟩

/-- Orders of points, one for each triangle, total for the points of its plane. -/
structure Orders (ord : Tri P3 → P3 → P3 → Prop) : Prop where
  irrefl : ∀ t x, ¬ ord t x x
  trans : ∀ t x y z, ord t x y → ord t y z → ord t x z
  total : ∀ t, Proper t → ∀ x y, LiesIn t x → LiesIn t y → x = y ∨ ord t x y ∨ ord t y x

/-- Where faces of different operands in a plane have four corners of their common part on a circle, the greatest of the four for the one face and the greatest of the four for the other are opposite to each other (if they are different). -/
def SplitCircles (ord : Tri P3 → P3 → P3 → Prop) (op : Bool → List (Tri P3)) : Prop :=
  ∀ t ∈ op true, ∀ u ∈ op false, ∀ k ≠ 0, Multiple k t u → ∀ w x y z, Extreme (Common t u) w → Extreme (Common t u) x → Extreme (Common t u) y → Extreme (Common t u) z →
    y ≠ z → Cocircular w x y z → ord t w x → ord t y x → ord t z x → ord u x w → ord u y w → ord u z w → Opposed w x y z

/-- Faces that look into the same direction have the same order. -/
def Uniform (ord : Tri P3 → P3 → P3 → Prop) : Prop := ∀ t u k, 0 < k → Multiple k t u → ∀ x y, ord t x y → ord u x y

/-- No four corners of the common part of two faces are on a circle, if the faces are in a plane and look into opposite directions. -/
def NoFourOpposite (op : Bool → List (Tri P3)) : Prop :=
  ∀ t ∈ op true, ∀ u ∈ op false, ∀ k < 0, Multiple k t u → ∀ w x y z, Extreme (Common t u) w → Extreme (Common t u) x → Extreme (Common t u) y → Extreme (Common t u) z →
    Cocircular w x y z → w = x ∨ w = y ∨ w = z ∨ x = y ∨ x = z ∨ y = z

def along (b x : P3) : ℚ := b.x * x.x + b.y * x.y + b.z * x.z

/-- A direction in the plane with normal `n`. -/
def first (n : P3) : P3 := if |n.y| ≤ |n.z| then ⟨n.z, 0, -n.x⟩ else ⟨n.y, -n.x, 0⟩

/-- The direction in the plane that is orthogonal to the first one. -/
def second (n : P3) : P3 := ⟨n.y * (first n).z - n.z * (first n).y, n.z * (first n).x - n.x * (first n).z, n.x * (first n).y - n.y * (first n).x⟩

/-- Points are compared along the first direction, and, if this makes no difference, along the second one. -/
def axes (t : Tri P3) (x y : P3) : Prop := along (first (outward t)) x < along (first (outward t)) y ∨
  along (first (outward t)) x = along (first (outward t)) y ∧ along (second (outward t)) x < along (second (outward t)) y

end Kigumi.Spec.Side
