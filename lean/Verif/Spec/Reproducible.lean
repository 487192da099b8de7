import Verif.Spec.Origin
import Verif.Spec.Triangulation

/-! # Specification: the same faces -/
namespace Kigumi.Spec.Side
open Kigumi Kigumi.Spec.Triangles
open Kigumi.Spec (SameTri)
variable {D : Type}

/-- The vertices that a face `t` of operand `b` may have: its corners, and the extreme points of what it has in common with faces of the other operand. -/
def VertexOf (op : Bool → List (Tri P3)) (b : Bool) (t : Tri P3) (x : P3) : Prop := x ∈ t.toList ∨ ∃ u ∈ op (!b), Extreme (Common t u) x

/-- No four vertices of a face are on a circle. -/
def NoFourVertices (op : Bool → List (Tri P3)) : Prop :=
  ∀ b, ∀ t ∈ op b, ∀ o w x y z, VertexOf op b t w → VertexOf op b t x → VertexOf op b t y → VertexOf op b t z →
    dist2 o w = dist2 o x → dist2 o x = dist2 o y → dist2 o y = dist2 o z → w = x ∨ w = y ∨ w = z ∨ x = y ∨ x = z ∨ y = z

/-- Two soups have the same faces, with the same data: the same corners in the same cyclic order. They may be stored in any order. -/
structure SameFaces (s s' : Soup P3 D) : Prop where
  there : ∀ p d, HasFace s p d → ∃ p', HasFace s' p' d ∧ SameTri p p'
  back : ∀ p d, HasFace s' p d → ∃ p', HasFace s p' d ∧ SameTri p p'
  count : s.faces.length = s'.faces.length

/-- Two soups have the same faces, whatever their data are. -/
structure SameShape (s s' : Soup P3 D) : Prop where
  there : ∀ p d, HasFace s p d → ∃ p' d', HasFace s' p' d' ∧ SameTri p p'
  back : ∀ p d, HasFace s' p d → ∃ p' d', HasFace s p' d' ∧ SameTri p p'
  count : s.faces.length = s'.faces.length

/-- Every edge of a triangle is an edge of exactly two triangles. -/
def TwoAtEdges (ts : List (Tri P3)) : Prop := ∀ t ∈ ts, ∀ c ∈ t.toList, ∀ d ∈ t.toList, c ≠ d → TwoAtEdge ts c d

end Kigumi.Spec.Side
