import Verif.Spec.Boolean

/-!
# Boolean expressions
-/
namespace Kigumi.Spec

/-- An expression of Boolean operations on numbered operands. The flag is the one that is passed to the operation (prefer faces of the first operand). -/
inductive Expr where
  | leaf (i : Nat)
  | node (op : Op) (pf : Bool) (l r : Expr)

/-- The numbers of the operands, from left to right. -/
def Expr.leaves : Expr → List Nat
  | .leaf i => [i]
  | .node _ _ l r => l.leaves ++ r.leaves

/-- The set that an expression of sets denotes. -/
def Expr.value {X : Type} (A : Nat → Set X) : Expr → Set X
  | .leaf i => A i
  | .node op _ l r => onSets op (l.value A) (r.value A)

/-- An intersection of any number of operands. -/
def Expr.Meets : Expr → Prop
  | .leaf _ => True
  | .node op _ l r => op = .intersection ∧ l.Meets ∧ r.Meets

end Kigumi.Spec
