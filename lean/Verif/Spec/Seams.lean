import Verif.Spec.Mesh

/-!
# Edges where faces of two operands meet
-/
namespace Kigumi.Spec

/-- The faces numbered `i` and `j` have the same three corners. -/
def Coincide (fs : List (Tri Nat)) (i j : Nat) : Prop := ∃ f g, fs[i]? = some f ∧ fs[j]? = some g ∧ (SameFace f g ∨ SameFace f.flip g)

/-- Face number `i` has the edge `pq`. -/
def HasEdge (fs : List (Tri Nat)) (p q i : Nat) : Prop := ∃ f r, fs[i]? = some f ∧ Apex p q f r

/-- Which edges have to be border edges: an edge with faces of both operands is one, unless it is inside of an area where the operands coincide: around it there are at most two faces of each operand, and every one of
them coincides with a face of the other operand. -/
structure Seams (fs : List (Tri Nat)) (owner : Nat → Bool) (border : List (Nat × Nat)) : Prop where
  two : ∀ p q, ¬ IsBorder border p q → ∀ i j, HasEdge fs p q i → HasEdge fs p q j → owner i ≠ owner j →
    ∀ k k' k'', HasEdge fs p q k → HasEdge fs p q k' → HasEdge fs p q k'' → owner k = owner k' → owner k' = owner k'' → k = k' ∨ k' = k'' ∨ k = k''
  coincide : ∀ p q, ¬ IsBorder border p q → ∀ i j, HasEdge fs p q i → HasEdge fs p q j → owner i ≠ owner j → ∀ k, HasEdge fs p q k → ∃ k', owner k' ≠ owner k ∧ Coincide fs k k'

end Kigumi.Spec
