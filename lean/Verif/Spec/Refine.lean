import Verif.Spec.Solid
import Verif.Spec.Seams

/-!
# Cutting the triangles of two operands into pieces
-/
namespace Kigumi.Spec.Side
open Kigumi Kigumi.Spec Kigumi.Spec.Triangles
variable {D : Type}

/-- `pieces` are the triangles `orig`, cut: piece number `i` is contained in triangle number `src i` and has its orientation, and every triangle is covered by its pieces. -/
structure Refines (orig pieces : List (Tri P3)) (src : Nat → Nat) : Prop where
  part : ∀ i p, pieces[i]? = some p → ∃ t, orig[src i]? = some t ∧ (∀ x, In p x → In t x) ∧ ∃ k > 0, outward p = ⟨k * (outward t).x, k * (outward t).y, k * (outward t).z⟩
  cover : ∀ j t x, orig[j]? = some t → In t x → ∃ i p, pieces[i]? = some p ∧ src i = j ∧ In p x

/-- The operand of a face. -/
def ownerOf (data : List (MixedData D)) (i : Nat) : Bool := (data[i]?.map (·.fromLeft)).getD true

/-- Two operands with the triangles `orig true` and `orig false` have been cut into the faces of `m`, which have the corners `ts`: the pieces meet only in common vertices and edges, no operand has a piece twice,
different vertices are different points, and the tags given so far say truly that pieces coincide. -/
structure CutInto (orig : Bool → List (Tri P3)) (m : Soup P3 (MixedData D)) (ts : List (Tri P3)) (border : List (Nat × Nat)) : Prop where
  data : m.data.length = m.faces.length
  corners : HasCorners m.points m.faces ts
  complex : Complex ts
  once : ∀ b, Once (operandTris ts m.data b)
  refines : ∀ b, ∃ src, Refines (orig b) (operandTris ts m.data b) src
  points : ∀ f ∈ m.faces, ∀ g ∈ m.faces, ∀ v ∈ f.toList, ∀ w ∈ g.toList, m.points[v]? = m.points[w]? → v = w
  edges : ∀ e ∈ border, e.1 ≠ e.2
  tags : ∀ x ∈ ts.zip m.data, x.2.tag = .unknown ∨ (x.2.tag = .coplanar ∧ ∃ u ∈ operandTris ts m.data (!x.2.fromLeft), SameTri x.1 u) ∨
    (x.2.tag = .opposite ∧ ∃ u ∈ operandTris ts m.data (!x.2.fromLeft), SameTri x.1.flip u)

/-- Moreover, the set `border` contains the edges that separate pieces with different tags. -/
structure Corefined (orig : Bool → List (Tri P3)) (m : Soup P3 (MixedData D)) (ts : List (Tri P3)) (border : List (Nat × Nat)) : Prop extends CutInto orig m ts border where
  seams : Seams m.faces (ownerOf m.data) border

end Kigumi.Spec.Side
