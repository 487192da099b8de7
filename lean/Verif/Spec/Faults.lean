import Verif.Spec.Defects
import Verif.Spec.Overlap
import Mathlib.Data.Sym.Sym2

/-!
# Defects of a set of triangles in space

Vertices are places and edges are pairs of places: what is said does not depend on how the triangles are stored.
-/
namespace Kigumi.Spec.Defects
open Kigumi.Spec Kigumi.Spec.Triangles

/-- There are `n` objects with the property. -/
def Counted {α : Type} (n : Nat) (S : α → Prop) : Prop := ∃ l : List α, l.Nodup ∧ l.length = n ∧ ∀ x, x ∈ l ↔ S x

/-- A vertex, one of the places `ps`, is no corner of a triangle. -/
def IsolatedAt (ps : List P3) (ts : List (Tri P3)) (p : P3) : Prop := p ∈ ps ∧ ∀ t ∈ ts, p ∉ t.toList

/-- The sides opposite to `p`, of triangles with three different corners, are there and are no path or cycle. -/
def PinchedAt (ts : List (Tri P3)) (p : P3) : Prop := link ts p ≠ [] ∧ ¬ PathOrCycle (link ts p)

/-- The edge is used once. -/
def BoundaryEdge (ts : List (Tri P3)) (e : Sym2 P3) : Prop := ∃ p q, e = s(p, q) ∧ uses ts p q + uses ts q p = 1

/-- The edge is used twice, in the same direction. -/
def InconsistentEdge (ts : List (Tri P3)) (e : Sym2 P3) : Prop := ∃ p q, e = s(p, q) ∧ uses ts p q = 2 ∧ uses ts q p = 0

/-- The edge is used more than twice. -/
def NonManifoldEdge (ts : List (Tri P3)) (e : Sym2 P3) : Prop := ∃ p q, e = s(p, q) ∧ 2 < uses ts p q + uses ts q p

/-- Triangle number `i` has two corners in one place. -/
def Collapsed (ts : List (Tri P3)) (i : Nat) : Prop := ∃ t, ts[i]? = some t ∧ ¬ Proper3 t

/-- Triangle number `i` has three different corners, on a line. -/
def Flat (ts : List (Tri P3)) (i : Nat) : Prop := ∃ t, ts[i]? = some t ∧ Proper3 t ∧ Collinear t.a t.b t.c

/-- Triangle number `i` overlaps with a later one: both are not degenerate and have a common point that is no common corner and not on a common edge. -/
def OverlapsLater (ts : List (Tri P3)) (i : Nat) : Prop :=
  ∃ j t u, i < j ∧ ts[i]? = some t ∧ ts[j]? = some u ∧ ¬ Collinear t.a t.b t.c ∧ ¬ Collinear u.a u.b u.c ∧ Overlap t.a t.b t.c u.a u.b u.c

end Kigumi.Spec.Defects
