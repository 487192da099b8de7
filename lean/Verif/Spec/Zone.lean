import Verif.Spec.Complex

/-!
# Surfaces that bound a region inside of a convex set

Open meshes do not bound a region of the whole space. They may bound one inside of an open convex set that contains their triangles, edges aside: the convex set is cut into two parts.
-/
namespace Kigumi.Spec.Side
open Kigumi Kigumi.Spec Kigumi.Spec.Triangles

/-- An open convex set. -/
structure Zone (K : P3 → Prop) : Prop where
  convex : ∀ x y z, K x → K y → OnSegment x y z → K z
  near : ∀ x, K x → ∃ e > 0, ∀ y, Near e y x → K y

/-- The whole space. -/
def Whole (_ : P3) : Prop := True

/-- The triangles are in the set, apart from their edges. -/
def StaysIn (K : P3 → Prop) (ts : List (Tri P3)) : Prop := ∀ t ∈ ts, ∀ x, Inner t x → K x

/-- Inside of the set `K`, the triangles bound the region `χ` (compare `Bounds`). -/
structure BoundsIn (K : P3 → Prop) (ts : List (Tri P3)) (χ : P3 → Prop) : Prop where
  const : ∀ x y, K x → K y → (∀ z, OnSegment x y z → ¬ Surface ts z) → (χ x ↔ χ y)
  jump : ∀ i t x, ts[i]? = some t → Singly ts i x → K x → ∃ e > 0, ∀ s, 0 < s → s ≤ e → χ (shift x (-s) (outward t)) ∧ ¬ χ (shift x s (outward t))

theorem zone_whole : Zone Whole := ⟨fun _ _ _ _ _ _ => trivial, fun _ _ => ⟨1, one_pos, fun _ _ => trivial⟩⟩

theorem within_whole (ts : List (Tri P3)) : StaysIn Whole ts := fun _ _ _ _ => trivial

theorem Bounds.whole {ts : List (Tri P3)} {χ : P3 → Prop} (h : Bounds ts χ) : BoundsIn Whole ts χ :=
  ⟨fun x y _ _ => h.const x y, fun i t x ht hx _ => h.jump i t x ht hx⟩

theorem BoundsIn.of_whole {ts : List (Tri P3)} {χ : P3 → Prop} (h : BoundsIn Whole ts χ) : Bounds ts χ :=
  ⟨fun x y => h.const x y trivial trivial, fun i t x ht hx => h.jump i t x ht hx trivial⟩

/-- What faces of the first and the second operand have in common is in the set `K`, apart from single points: the middle of any two different common points is. -/
def MeetIn (K : P3 → Prop) (op : Bool → List (Tri P3)) : Prop :=
  ∀ t ∈ op true, ∀ u ∈ op false, ∀ x y, x ≠ y → In t x → In t y → In u x → In u y → K ⟨(x.x + y.x) / 2, (x.y + y.y) / 2, (x.z + y.z) / 2⟩

end Kigumi.Spec.Side
