import Verif.Spec.Complex

/-!
# Constrained Delaunay triangulations of a triangle

What is expected of the triangulation of a face with additional vertices and constraints (segments between vertices).
-/
namespace Kigumi.Spec.Side
open Kigumi Kigumi.Spec Kigumi.Spec.Triangles

/-- The square of the distance. -/
def dist2 (x y : P3) : ℚ := (x.x - y.x) * (x.x - y.x) + (x.y - y.y) * (x.y - y.y) + (x.z - y.z) * (x.z - y.z)

/-- The point `v` is visible from `y`: no constraint separates them. -/
def Sees (S : P3 → P3 → Prop) (y v : P3) : Prop := ∀ x, OnSegment y v x → x ≠ v → ∀ c d, S c d → ¬ OnSegment c d x

/-- The triangles `ps` are a constrained Delaunay triangulation of the triangle `t` with additional vertices `V` and constraints `S`: they meet only in common vertices and edges, none of them is there twice, they cover
`t`, and have its orientation; their corners are the corners of `t` and the additional vertices, and no such point is anywhere else in them; every constraint consists of edges; and the circle through the corners of a
triangle has no vertex inside that is visible from the interior of the triangle. -/
structure Triangulates (t : Tri P3) (V : P3 → Prop) (S : P3 → P3 → Prop) (ps : List (Tri P3)) : Prop where
  complex : Complex ps
  once : Once ps
  inside : ∀ p ∈ ps, ∀ x, In p x → In t x
  cover : ∀ x, In t x → Surface ps x
  oriented : ∀ p ∈ ps, ∃ k > 0, outward p = ⟨k * (outward t).x, k * (outward t).y, k * (outward t).z⟩
  corner : ∀ p ∈ ps, ∀ v ∈ p.toList, V v ∨ v ∈ t.toList
  vertex : ∀ p ∈ ps, ∀ v, V v ∨ v ∈ t.toList → In p v → v ∈ p.toList
  segment : ∀ c d x, S c d → OnSegment c d x → ∃ p ∈ ps, ∃ c' ∈ p.toList, ∃ d' ∈ p.toList, OnSegment c d c' ∧ OnSegment c d d' ∧ OnSegment c' d' x
  delaunay : ∀ p ∈ ps, ∀ v, V v ∨ v ∈ t.toList → ∀ y, Inner p y → Sees S y v → ∀ o, dist2 o p.a = dist2 o p.b → dist2 o p.b = dist2 o p.c → dist2 o p.a ≤ dist2 o v

/-- The point `x` of the set is not between two other points of the set. -/
def Extreme (S : P3 → Prop) (x : P3) : Prop := S x ∧ ∀ y z, S y → S z → OnSegment y z x → y = x ∨ z = x

/-- The points that both triangles have. -/
def Common (t u : Tri P3) (x : P3) : Prop := In t x ∧ In u x

/-- A triangle of operand `b` coincides with one of the other operand. -/
def Coincides (op : Bool → List (Tri P3)) (b : Bool) (t : Tri P3) : Prop := ∃ u ∈ op (!b), Match t u

/-- The extreme points `c` and `d` of the common points of two triangles are joined by a constraint: they are on the same edge of one of the triangles, or they are the only ones. -/
def Joined (t u : Tri P3) (c d : P3) : Prop :=
  Extreme (Common t u) c ∧ Extreme (Common t u) d ∧ c ≠ d ∧ (SameEdge t.a t.b t.c c d ∨ SameEdge u.a u.b u.c c d ∨ ∀ x, Extreme (Common t u) x → x = c ∨ x = d)

/-- The additional vertices in a triangle of operand `b`: extreme points of what it has in common with a triangle of the other operand. Triangles that coincide with one of the other operand are left as they are. -/
def CutVertex (op : Bool → List (Tri P3)) (b : Bool) (t : Tri P3) (x : P3) : Prop :=
  ¬ Coincides op b t ∧ ∃ u ∈ op (!b), ¬ Coincides op (!b) u ∧ Extreme (Common t u) x

/-- The constraints in a triangle of operand `b`. -/
def CutSegment (op : Bool → List (Tri P3)) (b : Bool) (t : Tri P3) (c d : P3) : Prop :=
  ¬ Coincides op b t ∧ ∃ u ∈ op (!b), ¬ Coincides op (!b) u ∧ Joined t u c d

/-- Of the extreme points of what triangles of different operands have in common, no four are on a circle. -/
def NoFourOnCircle (op : Bool → List (Tri P3)) : Prop :=
  ∀ t ∈ op true, ∀ u ∈ op false, ∀ o w x y z, Extreme (Common t u) w → Extreme (Common t u) x → Extreme (Common t u) y → Extreme (Common t u) z →
    dist2 o w = dist2 o x → dist2 o x = dist2 o y → dist2 o y = dist2 o z → w = x ∨ w = y ∨ w = z ∨ x = y ∨ x = z ∨ y = z

/-- Faces of different operands have no triangle in common. -/
def NoOverlap (op : Bool → List (Tri P3)) : Prop := ∀ t ∈ op true, ∀ u ∈ op false, ∀ p, Proper p → ¬ ∀ x, In p x → Common t u x

/-- Exactly two of the triangles have the corners `c` and `d`. -/
def TwoAtEdge (ts : List (Tri P3)) (c d : P3) : Prop :=
  ∃ t1 ∈ ts, ∃ t2 ∈ ts, t1 ≠ t2 ∧ (c ∈ t1.toList ∧ d ∈ t1.toList) ∧ (c ∈ t2.toList ∧ d ∈ t2.toList) ∧ ∀ t ∈ ts, c ∈ t.toList → d ∈ t.toList → t = t1 ∨ t = t2

/-- Where a triangle coincides with one of the other operand, its operand has two triangles at each of its edges. -/
def ManifoldWhereCoinciding (op : Bool → List (Tri P3)) : Prop :=
  ∀ b, ∀ t ∈ op b, Coincides op b t → ∀ c ∈ t.toList, ∀ d ∈ t.toList, c ≠ d → TwoAtEdge (op b) c d

/-- The edges reported as intersections of the operands. -/
def BorderEdge (op : Bool → List (Tri P3)) (c d : P3) : Prop :=
  ∃ t ∈ op true, ∃ u ∈ op false, ¬ Coincides op true t ∧ ¬ Coincides op false u ∧ Joined t u c d

end Kigumi.Spec.Side
