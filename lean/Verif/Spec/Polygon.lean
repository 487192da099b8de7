import Verif.Model.Prelude
/-! # Border edges of a closed polygon given by its corners (spec) -/
namespace Kigumi.Spec

/-- `u` is followed by `v` in the cyclic order of the list. -/
def Follows (l : List Nat) (u v : Nat) : Prop := ∃ i : Nat, l[i]? = some u ∧ l[(i + 1) % l.length]? = some v

/-- The unordered edge `{u, v}` as a pair with the smaller end first. -/
def IsEdgeOf (e : Nat × Nat) (u v : Nat) : Prop := e.1 ≤ e.2 ∧ (e = (u, v) ∨ e = (v, u))

end Kigumi.Spec
