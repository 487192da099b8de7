import Verif.Spec.Triangles

/-!
# Contacts between two faces

In a clean soup two faces meet in common vertices or in a common edge only.
-/
namespace Kigumi.Spec.Triangles
open Kigumi.Spec

/-- `x` is a corner of both triangles. -/
def SharedVertex (a b c p q r x : P3) : Prop := (x = a ∨ x = b ∨ x = c) ∧ (x = p ∨ x = q ∨ x = r)

/-- `x` is a shared vertex (`u = v`) or on a shared edge. -/
def Joint (a b c p q r x : P3) : Prop := ∃ u v, SharedVertex a b c p q r u ∧ SharedVertex a b c p q r v ∧ OnSegment u v x

/-- The closed triangles have a common point that is neither a shared vertex nor on a shared edge. -/
def Overlap (a b c p q r : P3) : Prop := ∃ x, InTriangle a b c x ∧ InTriangle p q r x ∧ ¬ Joint a b c p q r x

end Kigumi.Spec.Triangles
