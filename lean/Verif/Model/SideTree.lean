import Verif.Model.Side
import Verif.Model.Candidates

/-!
# The side of a point, with the tree (include/kigumi/Side_of_triangle_soup.h:33-46, Triangle_soup.h:129-142)

`Verif.Model.Side` takes the faces that the tree reports for a ray as a parameter.  Here they come from the tree of `Verif.Model.AABB`, which any execution of its constructor may have built.
As in `Verif.Model.Candidates`, the boxes of the faces are parameters.
-/
namespace Kigumi.Side
open Kigumi Outcome Geo AABB
open Kigumi.Spec (Box)

/-- What the tree of a soup and its queries depend on. -/
structure Index where
  /-- the boxes of the faces when the tree was built (Triangle_soup.h:135-137) -/
  boxes : List Box
  /-- what else the construction depends on, see `Verif.Model.AABB` -/
  arr : Nat → List (Nat × Box) → List (Nat × Box)
  limit : Nat
  nodes : Nat → Node (Option Box)
  dflt : Nat × Box
  /-- `CGAL::do_intersect(bbox, ray)` -/
  meets : Box → P3 → P3 → Bool

/-- Boxes for the tree, as `Candidates.boxOps`; queries are rays, given by their source and another point. -/
def Index.ops (I : Index) : Boxes (Nat × Box) (Option Box) (P3 × P3) where
  empty := none
  join b c := match b, c with
    | none, c => c
    | b, none => b
    | some b, some c => some (b.join c)
  ofLeaf l := some l.2
  meets b q := match b with
    | none => false
    | some b => I.meets b q.1 q.2

/-- The tree may have been built like this: the end of some execution of the constructor (AABB_tree.h:25-42) on the leaves of the faces. -/
def Index.Built (I : Index) (mem : Mem (Nat × Box) (Option Box)) : Prop :=
  Prog.Exec (construct I.ops I.arr I.limit (Candidates.leavesOf I.boxes).length) (initial I.nodes (Candidates.leavesOf I.boxes) I.dflt) .skip mem

/-- `tree.get_intersecting_leaves` and `leaf->face_index()` (Side_of_triangle_soup.h:46, 49). -/
def Index.ask (I : Index) (mem : Mem (Nat × Box) (Option Box)) (p q : P3) : Outcome (List Nat) := do
  let ps ← query I.ops mem I.boxes.length (p, q)
  ok (ps.map fun i => (mem.leaves i).1)

/-- The environment of `sideOf` with the tree. -/
def Index.env (I : Index) (mem : Mem (Nat × Box) (Option Box)) (inter : P3 → P3 → P3 → P3 → P3 → Hit) (partialSort : List (ℚ × Nat) → List (ℚ × Nat)) : Env :=
  ⟨inter, I.ask mem, partialSort⟩

end Kigumi.Side
