import Verif.Model.AABB
import Verif.Model.ParallelDo
import Verif.Model.BooleanOperator
import Verif.Spec.Boxes

/-!
# Pairs of faces that may intersect (include/kigumi/Find_possibly_intersecting_faces.h)

A soup is given by the boxes of its faces.  The box of a face depends on the current floating-point approximations of its corners
(mesh_utility.h:20-26), which may be refined between the construction of the tree and the query; so the boxes in the tree and the boxes of the queries are
independent parameters here.
-/
namespace Kigumi.Candidates
open Kigumi Outcome AABB ParallelDo
open Kigumi.Spec (Box)

/-- `face_bbox` (mesh_utility.h:20-26): the join of the boxes of the corners. -/
def faceBox (t : Tri Box) : Box := (t.a.join t.b).join t.c

/-- `CGAL::do_intersect` of two boxes (CGAL's `do_overlap`: separated on no axis). -/
def overlap (b c : Box) : Bool :=
  if b.hi.x < c.lo.x ∨ c.hi.x < b.lo.x then false
  else if b.hi.y < c.lo.y ∨ c.hi.y < b.lo.y then false
  else if b.hi.z < c.lo.z ∨ c.hi.z < b.lo.z then false
  else true

/-- Boxes for the tree: leaves are face numbers with boxes (Triangle_soup.h:33-43), `none` is the empty box. -/
def boxOps : Boxes (Nat × Box) (Option Box) Box where
  empty := none
  join b c := match b, c with
    | none, c => c
    | b, none => b
    | some b, some c => some (b.join c)
  ofLeaf l := some l.2
  meets b q := match b with
    | none => false
    | some b => overlap b q

/-- The leaves built from the faces in order (Triangle_soup.h:133-137). -/
def leavesOf (boxes : List Box) : List (Nat × Box) := boxes.zipIdx.map (fun p => (p.2, p.1))

/-- The loop over the leaves found (Find_possibly_intersecting_faces.h:46-57). -/
def addPairs (leftIsA : Bool) (aTags : List Tag) (bfi : Nat) : List Nat → List (Nat × Nat) → Outcome (List (Nat × Nat))
  | [], acc => ok acc
  | afi :: rest, acc => do
    let t ← at! aTags afi
    if t ≠ .unknown then addPairs leftIsA aTags bfi rest acc
    else addPairs leftIsA aTags bfi rest (acc ++ [if leftIsA then (afi, bfi) else (bfi, afi)])

/-- The body of the loop (Find_possibly_intersecting_faces.h:36-58). -/
def body (leftIsA : Bool) (mem : Mem (Nat × Box) (Option Box)) (nA : Nat) (aTags bTags : List Tag) (bBoxes : List Box) (bfi : Nat) (acc : List (Nat × Nat)) :
    Outcome (List (Nat × Nat)) := do
  let t ← at! bTags bfi
  if t ≠ .unknown then ok acc
  else do
    let q ← at! bBoxes bfi
    let ps ← query boxOps mem nA q
    addPairs leftIsA aTags bfi (ps.map (fun p => (mem.leaves p).1)) acc

/-- An outcome as the result of a loop body (undefined behaviour is kept apart from exceptions by the message; the theorem shows that neither occurs). -/
def toExcept {α : Type} : Outcome α → Except String α
  | .ok a => .ok a
  | .exn m => .error m
  | .ub w => .error ("undefined behaviour: " ++ w)

/-- The loop (Find_possibly_intersecting_faces.h:34-65), including the merge of the local results (Find_possibly_intersecting_faces.h:59-65). -/
def loop (leftIsA : Bool) (mem : Mem (Nat × Box) (Option Box)) (nA nB : Nat) (aTags bTags : List Tag) (bBoxes : List Box) :
    Params (List (Nat × Nat)) String (List (Nat × Nat)) where
  size := nB
  init := []
  body i s := toExcept (body leftIsA mem nA aTags bTags bBoxes i s)
  hasPost := true
  post g s := (if g.isEmpty then s else g ++ s, none)

/-- `operator()` (Find_possibly_intersecting_faces.h:22-68): `r` is a possible result; `leftBoxes`, `rightBoxes` are the boxes in the trees and `leftQuery`, `rightQuery`
those of the queries.  The tree of `a` is built first, by any execution. -/
def Returns (arr : Nat → List (Nat × Box) → List (Nat × Box)) (limit configured hardware : Nat) (nodes : Nat → Node (Option Box)) (dflt : Nat × Box)
    (leftBoxes rightBoxes leftQuery rightQuery : List Box) (leftTags rightTags : List Tag) (r : Result String (List (Nat × Nat))) : Prop :=
  let leftIsA := decide (leftBoxes.length < rightBoxes.length)
  let aBoxes := if leftIsA then leftBoxes else rightBoxes
  let bQuery := if leftIsA then rightQuery else leftQuery
  let aTags := if leftIsA then leftTags else rightTags
  let bTags := if leftIsA then rightTags else leftTags
  ∃ mem, Prog.Exec (construct boxOps arr limit (leavesOf aBoxes).length) (initial nodes (leavesOf aBoxes) dflt) .skip mem ∧
    ParallelDo.Returns (loop leftIsA mem aBoxes.length bQuery.length aTags bTags bQuery) configured hardware [] r

end Kigumi.Candidates
