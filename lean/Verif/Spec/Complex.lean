import Verif.Spec.Side
import Verif.Spec.Arrangement

/-!
# Triangles that meet only in common vertices and edges
-/
namespace Kigumi.Spec.Side
open Kigumi Kigumi.Spec Kigumi.Spec.Triangles

/-- The point is in the triangle, and not on its edges. -/
def Inner (t : Tri P3) (x : P3) : Prop := Open true true true t.a t.b t.c x

/-- The two triangles have the same corners. -/
def Match (t u : Tri P3) : Prop := SameTri t u ∨ SameTri t.flip u

/-- The point is a convex combination of corners of `t` that are corners of `u`. -/
def InCommon (t u : Tri P3) (x : P3) : Prop :=
  ∃ w0 w1 w2 : ℚ, w0 + w1 + w2 = 1 ∧ x = combo w0 w1 w2 t.a t.b t.c ∧ 0 ≤ w0 ∧ 0 ≤ w1 ∧ 0 ≤ w2 ∧
    (w0 ≠ 0 → t.a ∈ u.toList) ∧ (w1 ≠ 0 → t.b ∈ u.toList) ∧ (w2 ≠ 0 → t.c ∈ u.toList)

/-- Triangles with area, two of which have nothing in common but what their common corners span: nothing, a vertex, an edge, or everything. -/
structure Complex (W : List (Tri P3)) : Prop where
  proper : ∀ t ∈ W, Proper t
  meet : ∀ t ∈ W, ∀ u ∈ W, ∀ x, In t x → In u x → InCommon t u x

/-- No two of the triangles have the same corners. -/
def Once (ts : List (Tri P3)) : Prop := ∀ (i j : Nat) (t u : Tri P3), ts[i]? = some t → ts[j]? = some u → Match t u → i = j

end Kigumi.Spec.Side
