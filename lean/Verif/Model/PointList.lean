import Verif.Model.Prelude

/-!
# Point lists (include/kigumi/Point_list.h)

The hash map is a finite map from points to positions; its hash function is not modelled (equal points have equal hashes).
-/
namespace Kigumi
open Outcome

variable {P : Type}

/-- `Point_list` (Point_list.h:24-76). -/
structure PointList (P : Type) where
  /-- `points_` -/
  points : List P
  /-- `point_to_index_`: the entries, in the order in which they were inserted -/
  map : List (P × Nat)
  /-- `check_uniqueness_` -/
  check : Bool
  deriving DecidableEq, Repr

namespace PointList

/-- A new list: everything is empty, no check (Point_list.h:72-75). -/
def fresh : PointList P := ⟨[], [], false⟩

/-- Finding a key in the map. -/
def find [DecidableEq P] (m : List (P × Nat)) (p : P) : Option Nat :=
  match m with
  | [] => none
  | (k, v) :: m => if k = p then some v else find m p

/-- `insert` (Point_list.h:35-50): the new state and the index returned. -/
def insert [DecidableEq P] (l : PointList P) (p : P) : PointList P × Nat :=
  if !l.check then (⟨l.points ++ [p], l.map, l.check⟩, l.points.length)
  else match find l.map p with
    | some i => (l, i)
    | none => (⟨l.points ++ [p], l.map ++ [(p, l.points.length)], l.check⟩, l.points.length)

/-- `start_uniqueness_check` (Point_list.h:65). -/
def startCheck (l : PointList P) : PointList P := { l with check := true }
/-- `stop_uniqueness_check` (Point_list.h:67-70). -/
def stopCheck (l : PointList P) : PointList P := { l with check := false, map := [] }

/-- Inserting several points one after the other; the indices returned. -/
def insertAll [DecidableEq P] (l : PointList P) : List P → PointList P × List Nat
  | [] => (l, [])
  | p :: ps =>
    let (l1, i) := l.insert p
    let (l2, is) := l1.insertAll ps
    (l2, i :: is)

/-- Operations of a history (`reserve` has no observable effect). -/
inductive Op (P : Type) where
  | insert (p : P)
  | start
  | stop

/-- One operation. -/
def apply [DecidableEq P] (l : PointList P) : Op P → PointList P
  | .insert p => (l.insert p).1
  | .start => l.startCheck
  | .stop => l.stopCheck

end PointList

/-- The points of both operands in the constructor of `Corefine` (Corefine.h:45-53): the list and the ids of the left and right vertices. -/
def corefinePoints [DecidableEq P] (left right : List P) : PointList P × List Nat × List Nat :=
  let l0 := (PointList.fresh : PointList P).startCheck
  let (l1, leftIds) := l0.insertAll left
  let (l2, rightIds) := l1.insertAll right
  (l2.stopCheck, leftIds, rightIds)

end Kigumi
