import Verif.Model.BooleanOperator
/-! # Reachability through unclassified faces (spec) -/
namespace Kigumi.Spec

/-- `g` can be reached from `r` by going from face to neighbouring face, entering only faces that are unclassified in `tags`. -/
inductive Reach (nbr : Nat → Nat → Prop) (tags : Nat → Tag) (r : Nat) : Nat → Prop
  | seed : Reach nbr tags r r
  | step {f g} : Reach nbr tags r f → nbr f g → tags g = .unknown → Reach nbr tags r g

end Kigumi.Spec
