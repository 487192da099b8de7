import Verif.Model.Ranges

/-!
# Walking in a range, boxes

Positions are integers.  Of the model, only the names of the moves and the type of boxes are used.
-/
namespace Kigumi.Spec.Ranges
open Kigumi.Ranges (Move Box)

/-- The position after a move. -/
def moved (p : Int) : Move → Int
  | .next => p + 1
  | .prev => p - 1
  | .plus n => p + n
  | .minus n => p - n

/-- The walk never leaves the positions from 0 to `n` and ends at `q`. -/
inductive Walk (n : Nat) : Int → List Move → Int → Prop
  | stay {p : Int} : 0 ≤ p → p ≤ n → Walk n p [] p
  | go {p q : Int} {m : Move} {ms : List Move} : 0 ≤ p → p ≤ n → Walk n (moved p m) ms q → Walk n p (m :: ms) q

/-- Every point of the first box is in the second. -/
def Inside (b c : Box) : Prop := ∀ k, c.lo k ≤ b.lo k ∧ b.hi k ≤ c.hi k

/-- The point is in the box. -/
def Contains (b : Box) (p : Fin 3 → ℚ) : Prop := ∀ k, b.lo k ≤ ((p k : WithTop ℚ) : WithBot (WithTop ℚ)) ∧ ((p k : WithTop ℚ) : WithBot (WithTop ℚ)) ≤ b.hi k

end Kigumi.Spec.Ranges
