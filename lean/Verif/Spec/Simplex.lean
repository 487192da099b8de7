import Verif.Model.Prelude
/-!
# Simplices of two triangles as vertex sets

Vertices 0,1,2 belong to the left triangle, 3,4,5 to the right one. The meaning of a code is its set of vertices.
-/
namespace Kigumi.Spec.Simplex

/-- Vertex `k` belongs to the set denoted by a code. -/
def Has (code k : Nat) : Prop := code.testBit k = true

instance (c k : Nat) : Decidable (Has c k) := inferInstanceAs (Decidable (_ = true))

/-- All vertices belong to the left triangle. -/
def InLeft (c : Nat) : Prop := ∀ k, k < 8 → Has c k → k < 3
/-- All vertices belong to the right triangle. -/
def InRight (c : Nat) : Prop := ∀ k, k < 8 → Has c k → 3 ≤ k ∧ k < 6
/-- A non-empty set of vertices of one of the triangles. -/
def IsSimplex (c : Nat) : Prop := (InLeft c ∨ InRight c) ∧ ∃ k, k < 8 ∧ Has c k
/-- Number of vertices. -/
def size (c : Nat) : Nat := ((List.range 8).filter (fun k => decide (Has c k))).length
/-- The set with the one vertex `k`. -/
def single (k : Nat) : Nat := 2 ^ k
/-- The vertex following `k` around its triangle. -/
def nextV (k : Nat) : Nat := if k < 3 then (k + 1) % 3 else 3 + (k - 3 + 1) % 3

instance (c : Nat) : Decidable (InLeft c) := inferInstanceAs (Decidable (∀ k, k < 8 → _))
instance (c : Nat) : Decidable (InRight c) := inferInstanceAs (Decidable (∀ k, k < 8 → _))
instance (c : Nat) : Decidable (IsSimplex c) := inferInstanceAs (Decidable (_ ∧ ∃ k, k < 8 ∧ _))

end Kigumi.Spec.Simplex
