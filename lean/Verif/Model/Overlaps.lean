import Verif.Model.Candidates
import Verif.Model.Defects
import Verif.Model.FaceFace

/-!
# Overlapping faces (include/kigumi/Find_defects.h:284-364)

The soup is given by its points, its faces and the boxes of its faces; as in `Verif.Model.Candidates` the boxes in the tree and those of the queries are independent.
The `thread_local` objects (Find_defects.h:305-307) are taken to be new in every call: `leaves` and `shared_vertices` are cleared before each use, and the intersection
object clears its cache in every call but refers to the points of the first call on its thread (see `Verif.Model.ThreadLocal` for what that means for a second call).
-/
namespace Kigumi.Overlaps
open Kigumi Outcome AABB ParallelDo Candidates
open Kigumi.Spec (Box)

/-- `std::sort` of the three vertices (Find_defects.h:317, 326). -/
def sort3 (f : Tri Nat) : Tri Nat :=
  if f.a ≤ f.b then
    if f.b ≤ f.c then f else if f.a ≤ f.c then ⟨f.a, f.c, f.b⟩ else ⟨f.c, f.a, f.b⟩
  else
    if f.a ≤ f.c then ⟨f.b, f.a, f.c⟩ else if f.b ≤ f.c then ⟨f.b, f.c, f.a⟩ else ⟨f.c, f.b, f.a⟩

/-- `std::set_intersection` of two sorted ranges (Find_defects.h:335-336). -/
def setInter : List Nat → List Nat → List Nat
  | [], _ => []
  | _ :: _, [] => []
  | x :: xs, y :: ys =>
    if x < y then setInter xs (y :: ys)
    else if y < x then setInter (x :: xs) ys
    else x :: setInter xs ys
termination_by l m => l.length + m.length

/-- The case distinction by the number of corners of the intersection (Find_defects.h:339-352), which is not empty. -/
def tooMuch (corners shared : Nat) : Bool :=
  if corners = 1 then decide (shared < 1)
  else if corners = 2 then decide (shared < 2)
  else true

/-- The loop over the leaves found (Find_defects.h:319-353) for the face `fi` with sorted vertices `f`. -/
def scan (pts : List Geo.P3) (faces : List (Tri Nat)) (degenerate : List Nat) (fi : Nat) (f : Tri Nat) : List Nat → List Nat → Outcome (List Nat)
  | [], acc => ok acc
  | fi2 :: rest, acc =>
    if fi2 ≤ fi ∨ fi2 ∈ degenerate then scan pts faces degenerate fi f rest acc
    else (at! faces fi2).bind fun face2 =>
      (FaceFace.intersect pts f.a f.b f.c (sort3 face2).a (sort3 face2).b (sort3 face2).c).bind fun inter =>
        if inter.isEmpty then scan pts faces degenerate fi f rest acc
        else if tooMuch inter.length (setInter f.toList (sort3 face2).toList).length then ok (acc ++ [fi])
        else scan pts faces degenerate fi f rest acc

/-- The body of the loop (Find_defects.h:304-354). -/
def body (pts : List Geo.P3) (faces : List (Tri Nat)) (degenerate : List Nat) (mem : Mem (Nat × Box) (Option Box)) (boxes : List Box) (fi : Nat) (acc : List Nat) : Outcome (List Nat) :=
  if fi ∈ degenerate then ok acc
  else (at! boxes fi).bind fun q =>
    (query boxOps mem faces.length q).bind fun ps =>
      (at! faces fi).bind fun face =>
        scan pts faces degenerate fi (sort3 face) (ps.map (fun p => (mem.leaves p).1)) acc

/-- The points in the list (Find_defects.h:295-298): inserted one by one without the check for uniqueness. -/
def pointsOf (points : List Geo.P3) : List Geo.P3 := ((PointList.fresh : PointList Geo.P3).insertAll points).1.points

/-- The loop (Find_defects.h:302-361) with the set of degenerate faces (Find_defects.h:289-293). -/
def loop (points : List Geo.P3) (faces : List (Tri Nat)) (trivial nonTrivial : List Nat) (mem : Mem (Nat × Box) (Option Box)) (boxes : List Box) : Params (List Nat) String (List Nat) where
  size := faces.length
  init := []
  body i s := toExcept (body (pointsOf points) faces (trivial ++ nonTrivial) mem boxes i s)
  hasPost := true
  post g s := (if g.isEmpty then s else g ++ s, none)

/-- `overlapping_faces` (Find_defects.h:284-364): `r` is a possible result.  The tree is built first (Find_defects.h:300), by any execution. -/
def Returns (arr : Nat → List (Nat × Box) → List (Nat × Box)) (limit configured hardware : Nat) (nodes : Nat → Node (Option Box)) (dflt : Nat × Box)
    (points : List Geo.P3) (faces : List (Tri Nat)) (trivial nonTrivial : List Nat) (treeBoxes queryBoxes : List Box) (r : Result String (List Nat)) : Prop :=
  ∃ mem, Prog.Exec (construct boxOps arr limit (leavesOf treeBoxes).length) (initial nodes (leavesOf treeBoxes) dflt) .skip mem ∧
    ParallelDo.Returns (loop points faces trivial nonTrivial mem queryBoxes) configured hardware [] r

end Kigumi.Overlaps
