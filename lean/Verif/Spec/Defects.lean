import Verif.Model.Prelude
import Verif.Spec.Graph
import Mathlib.Algebra.Order.Field.Rat
import Verif.Spec.Boxes

/-! # Defects (spec) -/
namespace Kigumi.Spec.Defects
open Kigumi
variable {V : Type}

/-- Three different vertices. -/
def Proper3 (f : Tri V) : Prop := f.a ≠ f.b ∧ f.b ≠ f.c ∧ f.a ≠ f.c

instance [DecidableEq V] (f : Tri V) : Decidable (Proper3 f) := inferInstanceAs (Decidable (_ ∧ _))

/-- The directed sides of a face. -/
def sides (f : Tri V) : List (V × V) := [(f.a, f.b), (f.b, f.c), (f.c, f.a)]

/-- How often the faces with three different vertices use the directed side `(v, w)`. -/
def uses [DecidableEq V] (fs : List (Tri V)) (v w : V) : Nat := ((fs.filter (fun f => decide (Proper3 f))).flatMap sides).count (v, w)

/-- `v < w` are the ends of an edge of such a face. -/
def IsEdge (fs : List (Tri Nat)) (v w : Nat) : Prop := v < w ∧ 0 < uses fs v w + uses fs w v
/-- Used once in each direction. -/
def Regular (fs : List (Tri Nat)) (v w : Nat) : Prop := v < w ∧ uses fs v w = 1 ∧ uses fs w v = 1
/-- Used once. -/
def Boundary (fs : List (Tri Nat)) (v w : Nat) : Prop := v < w ∧ uses fs v w + uses fs w v = 1
/-- Used twice, in the same direction. -/
def Inconsistent (fs : List (Tri Nat)) (v w : Nat) : Prop := v < w ∧ ((uses fs v w = 2 ∧ uses fs w v = 0) ∨ (uses fs v w = 0 ∧ uses fs w v = 2))
/-- Used more than twice. -/
def NonManifold (fs : List (Tri Nat)) (v w : Nat) : Prop := v < w ∧ 2 < uses fs v w + uses fs w v

/-- The side of a face opposite to its vertex `v`, if it has the vertex. -/
def oppositeSide [DecidableEq V] (f : Tri V) (v : V) : List (V × V) :=
  if v = f.a then [(f.b, f.c)] else if v = f.b then [(f.c, f.a)] else if v = f.c then [(f.a, f.b)] else []

/-- The link of a vertex: the opposite sides in the faces with three different vertices. -/
def link [DecidableEq V] (fs : List (Tri V)) (v : V) : List (V × V) := (fs.filter (fun f => decide (Proper3 f))).flatMap (fun f => oppositeSide f v)

/-- `x` is an end of one of the edges. -/
def End (es : List (V × V)) (x : V) : Prop := ∃ e ∈ es, x = e.1 ∨ x = e.2

/-- A connected simple graph in which no vertex has more than two edges. -/
def PathOrCycle [DecidableEq V] (es : List (V × V)) : Prop :=
  Graph.Simple es ∧ (∀ x y, End es x → End es y → Graph.Reach es x y) ∧ ∀ x, Graph.deg es x ≤ 2

/-- The three points are on a line. -/
def Collinear (a b c : P3) : Prop := ∃ (p d : P3), ∀ q ∈ [a, b, c], ∃ s : ℚ, q = ⟨p.x + s * d.x, p.y + s * d.y, p.z + s * d.z⟩

end Kigumi.Spec.Defects
