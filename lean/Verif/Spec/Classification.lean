import Verif.Model.BooleanOperator

/-!
# What the classification of faces should be (spec)

Faces around an edge are numbered `0, …, m - 1` counterclockwise.  `owner` says which operand a face belongs to, `ccw` whether its outer side is the counterclockwise one,
`apex` is its third vertex; two faces with the same apex coincide.
-/
namespace Kigumi.Spec

/-- The faces bound two regions: in the gap `i` before face `i` (and after face `i - 1`) a point is inside the region of operand `x` iff `inside x i`.
Crossing a face counterclockwise from its inner to its outer side leaves the region of its owner, crossing it the other way enters it; the other region is not affected. After
a full turn one is back in the first gap.  (Coincident faces are crossed one after the other.) -/
def TwoRegions (m : Nat) (owner ccw : Nat → Bool) (inside : Bool → Nat → Bool) : Prop :=
  (∀ i, i < m → inside (owner i) i = ccw i ∧ inside (owner i) (i + 1) = (!ccw i) ∧ inside (!owner i) (i + 1) = inside (!owner i) i) ∧
  ∀ x, inside x m = inside x 0

/-- The right tag of face `i`. -/
def RightTag (m : Nat) (owner ccw : Nat → Bool) (apex : Nat → Nat) (inside : Bool → Nat → Bool) (i : Nat) : Tag → Prop
  | .unknown => False
  | .coplanar => ∃ j, j < m ∧ j ≠ i ∧ apex j = apex i ∧ ccw j = ccw i
  | .opposite => ∃ j, j < m ∧ j ≠ i ∧ apex j = apex i ∧ ccw j ≠ ccw i
  | .interior => (∀ j, j < m → j ≠ i → apex j ≠ apex i) ∧ inside (!owner i) i = true
  | .exterior => (∀ j, j < m → j ≠ i → apex j ≠ apex i) ∧ inside (!owner i) i = false

/-- Coincident faces belong to different operands and are next to each other. -/
def Coincidences (m : Nat) (owner : Nat → Bool) (apex : Nat → Nat) : Prop :=
  ∀ i j, i < m → j < m → i ≠ j → apex i = apex j → owner i ≠ owner j ∧ (j = (i + 1) % m ∨ i = (j + 1) % m)

end Kigumi.Spec
