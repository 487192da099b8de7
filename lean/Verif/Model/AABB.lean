import Verif.Model.Prelude
import Verif.Model.Parallel

/-!
# The AABB tree (include/kigumi/AABB_tree/AABB_tree.h, AABB_node.h)

Boxes, leaves and queries are abstract: a way to get a leaf's box, to join boxes, the empty box, and the test `do_intersect`.
Memory: the vectors `nodes_` and `leaves_` as maps from positions; pointers into them are positions.
`std::sort` and `std::nth_element` are an arbitrary function `arr` giving the new contents of a range (it may depend on the call's node);
the theorems only assume that it permutes.
-/
namespace Kigumi.AABB
open Kigumi Outcome

variable {L B Q : Type}

/-- What the tree needs to know about boxes: `Bbox{}`, `operator+=`, `Leaf::bbox()`, `CGAL::do_intersect`. -/
structure Boxes (L B Q : Type) where
  empty : B
  join : B → B → B
  ofLeaf : L → B
  meets : B → Q → Bool

/-- `const void*` members `left_`, `right_` (AABB_node.h:34-35). -/
inductive Ptr where
  | null
  | leaf (i : Nat)
  | node (i : Nat)
  deriving DecidableEq, Repr

/-- `AABB_node` (AABB_node.h:7-36). -/
structure Node (B : Type) where
  box : B
  left : Ptr
  right : Ptr

/-- `nodes_` and `leaves_` (AABB_tree.h:189-190). -/
structure Mem (L B : Type) where
  nodes : Nat → Node B
  leaves : Nat → L

/-- The leaves in `[first, first + m)`. -/
def slice (mem : Mem L B) (first m : Nat) : List L := (List.range' first m).map mem.leaves

/-- `bbox_from_leaves` (AABB_tree.h:171-178). -/
def boxFrom (ops : Boxes L B Q) (ls : List L) : B := ls.foldl (fun b l => ops.join b (ops.ofLeaf l)) ops.empty

/-- `node_it->set_bbox(bbox_from_leaves(first, last))` (AABB_tree.h:69). -/
def setBox (ops : Boxes L B Q) (k first m : Nat) (mem : Mem L B) : Mem L B :=
  { mem with nodes := fun i => if i = k then { mem.nodes i with box := boxFrom ops (slice mem first m) } else mem.nodes i }

/-- The setters of the two children (AABB_tree.h:75-76, 87-88, 106-107). -/
def setPtrs (k : Nat) (l r : Ptr) (mem : Mem L B) : Mem L B :=
  { mem with nodes := fun i => if i = k then { mem.nodes i with left := l, right := r } else mem.nodes i }

/-- `std::sort`/`std::nth_element` on `[first, first + m)` (AABB_tree.h:83-85, 102-104). -/
def rearrange (arr : Nat → List L → List L) (k first m : Nat) (mem : Mem L B) : Mem L B :=
  { mem with leaves := fun i =>
      if first ≤ i ∧ i < first + m then ((arr k (slice mem first m))[i - first]?).getD (mem.leaves i) else mem.leaves i }

/-- `build` (AABB_tree.h:66-123) for node `k` and leaves `[first, first + m)` at depth `d`.
The first argument bounds the depth of the recursion; the constructor passes the number of leaves, which is always enough. -/
def build (ops : Boxes L B Q) (arr : Nat → List L → List L) (limit : Nat) : Nat → Nat → Nat → Nat → Nat → Prog (Mem L B)
  | 0, _, _, _, _ => .skip
  | fuel + 1, k, first, m, d =>
    .seq (.act (setBox ops k first m)) <|
    if m = 2 then .act (setPtrs k (.leaf first) (.leaf (first + 1)))
    else if m = 3 then
      .seq (.act (rearrange arr k first m)) <|
      .seq (.act (setPtrs k (.leaf first) (.node (k + 1)))) <|
      build ops arr limit fuel (k + 1) (first + 1) (m - 1) (d + 1)
    else
      let nl := m / 2
      .seq (.act (rearrange arr k first m)) <|
      .seq (.act (setPtrs k (.node (k + 1)) (.node (k + nl)))) <|
      if d < limit then
        .par (build ops arr limit fuel (k + 1) first nl (d + 1)) (build ops arr limit fuel (k + nl) (first + nl) (m - nl) (d + 1))
      else
        .seq (build ops arr limit fuel (k + 1) first nl (d + 1)) (build ops arr limit fuel (k + nl) (first + nl) (m - nl) (d + 1))

/-- The constructor (AABB_tree.h:25-42) for `n` leaves: with fewer than two leaves there are no nodes; otherwise `n - 1` nodes
are allocated and `build` is called for node 0 and all leaves. -/
def construct (ops : Boxes L B Q) (arr : Nat → List L → List L) (limit n : Nat) : Prog (Mem L B) :=
  if n ≤ 1 then .skip else build ops arr limit n 0 0 n 0

/-- `left_leaf()`, `right_leaf()`: reading a pointer that was not set to a leaf is undefined behaviour. -/
def asLeaf : Ptr → Outcome Nat
  | .leaf i => ok i
  | _ => ub "not a leaf"

/-- `left_node()`, `right_node()`. -/
def asNode : Ptr → Outcome Nat
  | .node i => ok i
  | _ => ub "not a node"

/-- Append the leaf if its box meets the query (AABB_tree.h:131-136, 140-142). -/
def emit (ops : Boxes L B Q) (mem : Mem L B) (q : Q) (i : Nat) : List Nat :=
  if ops.meets (ops.ofLeaf (mem.leaves i)) q then [i] else []

/-- `traverse` (AABB_tree.h:125-160); returns the positions of the leaves output.  The first argument bounds the
recursion depth. -/
def traverse (ops : Boxes L B Q) (mem : Mem L B) (q : Q) : Nat → Nat → Nat → Outcome (List Nat)
  | 0, _, _ => ub "recursion"
  | fuel + 1, m, k =>
    let node := mem.nodes k
    if m = 2 then do
      let l ← asLeaf node.left
      let r ← asLeaf node.right
      ok (emit ops mem q l ++ emit ops mem q r)
    else if m = 3 then do
      let l ← asLeaf node.left
      let r ← asNode node.right
      let rest ← if ops.meets (mem.nodes r).box q then traverse ops mem q fuel 2 r else ok []
      ok (emit ops mem q l ++ rest)
    else do
      let nl := m / 2
      let l ← asNode node.left
      let left ← if ops.meets (mem.nodes l).box q then traverse ops mem q fuel nl l else ok []
      let r ← asNode node.right
      let right ← if ops.meets (mem.nodes r).box q then traverse ops mem q fuel (m - nl) r else ok []
      ok (left ++ right)

/-- `get_intersecting_leaves` (AABB_tree.h:44-62) on a tree with `n` leaves; returns positions. -/
def query (ops : Boxes L B Q) (mem : Mem L B) (n : Nat) (q : Q) : Outcome (List Nat) :=
  match n with
  | 0 => ok []
  | 1 => ok (emit ops mem q 0)
  | n => traverse ops mem q n n 0

/-- The memory before construction: the given leaves, nodes in whatever state. -/
def initial (nodes : Nat → Node B) (ls : List L) (dflt : L) : Mem L B := ⟨nodes, fun i => (ls[i]?).getD dflt⟩

end Kigumi.AABB
