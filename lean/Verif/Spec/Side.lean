import Verif.Spec.Triangles
import Verif.Model.Prelude

/-!
# Surfaces and the regions they bound
-/
namespace Kigumi.Spec.Side
open Kigumi Kigumi.Spec Kigumi.Spec.Triangles

/-- The point is in the closed triangle. -/
def In (t : Tri P3) (x : P3) : Prop := InTriangle t.a t.b t.c x

/-- The point is in one of the closed triangles. -/
def Surface (ts : List (Tri P3)) (x : P3) : Prop := ∃ t ∈ ts, In t x

/-- The vector that points to the side from which the corners are seen counterclockwise; its length is twice the area. -/
def outward (t : Tri P3) : P3 :=
  ⟨(t.b.y - t.a.y) * (t.c.z - t.a.z) - (t.b.z - t.a.z) * (t.c.y - t.a.y), (t.b.z - t.a.z) * (t.c.x - t.a.x) - (t.b.x - t.a.x) * (t.c.z - t.a.z),
    (t.b.x - t.a.x) * (t.c.y - t.a.y) - (t.b.y - t.a.y) * (t.c.x - t.a.x)⟩

/-- The corners are not on one line. -/
def Proper (t : Tri P3) : Prop := outward t ≠ ⟨0, 0, 0⟩

/-- `x + s v` -/
def shift (x : P3) (s : ℚ) (v : P3) : P3 := ⟨x.x + s * v.x, x.y + s * v.y, x.z + s * v.z⟩

/-- Triangle number `i` is the only one with the point. -/
def Singly (ts : List (Tri P3)) (i : Nat) (x : P3) : Prop := ∃ t, ts[i]? = some t ∧ In t x ∧ ∀ j u, ts[j]? = some u → In u x → j = i

/-- The triangles bound the region `χ`: one stays on the same side along segments that avoid the surface, and at a point that is in one triangle only, the region is on the inner side of that triangle and not on
the outer side. -/
structure Bounds (ts : List (Tri P3)) (χ : P3 → Prop) : Prop where
  const : ∀ x y, (∀ z, OnSegment x y z → ¬ Surface ts z) → (χ x ↔ χ y)
  jump : ∀ i t x, ts[i]? = some t → Singly ts i x → ∃ e > 0, ∀ s, 0 < s → s ≤ e → χ (shift x (-s) (outward t)) ∧ ¬ χ (shift x s (outward t))

/-- Coordinates differ by at most `e`. -/
def Near (e : ℚ) (x y : P3) : Prop := -e ≤ x.x - y.x ∧ x.x - y.x ≤ e ∧ -e ≤ x.y - y.y ∧ x.y - y.y ≤ e ∧ -e ≤ x.z - y.z ∧ x.z - y.z ≤ e

/-- Triangles do not overlap in areas: close to every point of a triangle there are points that are in this triangle only. -/
def Thin (ts : List (Tri P3)) : Prop := ∀ i t x e, ts[i]? = some t → In t x → 0 < e → ∃ y, Near e y x ∧ Singly ts i y

/-- The point is on the ray from `p` through `q`. -/
def OnRay (p q x : P3) : Prop := ∃ s, 0 ≤ s ∧ x = ⟨p.x + s * (q.x - p.x), p.y + s * (q.y - p.y), p.z + s * (q.z - p.z)⟩

end Kigumi.Spec.Side
