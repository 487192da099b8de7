import Verif.Spec.Side

/-!
# Regularized sets

/repo/README.md:64-69 ("The result of each Boolean operation is regularized, i.e., the interior of the result is taken first, followed by its closure"), with nothing but the distance of points.
-/
namespace Kigumi.Spec.Regular
open Kigumi Spec.Side
open Kigumi.Spec (P3)

/-- The interior: all points that are close enough are in the set. -/
def Inside (A : P3 → Prop) (x : P3) : Prop := ∃ e > 0, ∀ y, Near e y x → A y

/-- The closure: there are points of the set as close as one likes. -/
def Limit (A : P3 → Prop) (x : P3) : Prop := ∀ e > 0, ∃ y, Near e y x ∧ A y

/-- The closure of the interior. -/
def Regular (A : P3 → Prop) : P3 → Prop := Limit (Inside A)

/-- The border of a set: points of the closure that are not in the interior. -/
def Border (A : P3 → Prop) (x : P3) : Prop := Limit A x ∧ ¬ Inside A x

end Kigumi.Spec.Regular
