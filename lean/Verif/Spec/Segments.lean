import Verif.Spec.Constructions

/-!
# Segments that cross
-/
namespace Kigumi.Spec.Triangles
open Kigumi.Spec

/-- `x` is on the segment, and neither of its ends. -/
def Inside (a b x : P3) : Prop := OnSegment a b x ∧ x ≠ a ∧ x ≠ b

/-- The segments have a point in common that is not an end of either, and are not on one line. -/
def Cross (a b c d : P3) : Prop := (∃ x, Inside a b x ∧ Inside c d x) ∧ ¬ (OnLine a b c ∧ OnLine a b d)

end Kigumi.Spec.Triangles
