import Verif.Model.Flood

/-!
# Global classification (include/kigumi/Classify_faces_globally.h) and warnings (include/kigumi/Warnings.h)
-/
namespace Kigumi.Global
open Kigumi Outcome

/-- `Warnings` (Warnings.h:7-11), a `uint8_t`. -/
abbrev Warnings := BitVec 8
def Warnings.none : Warnings := 0
def Warnings.first : Warnings := 1
def Warnings.second : Warnings := 2

/-- `operator|` (Warnings.h:13-15). -/
def Warnings.or (a b : Warnings) : Warnings := a ||| b

/-- The warning raised by a flood from a face of the given operand (Propagate_face_tags.h:36-40). -/
def flag (fromLeft : Bool) : Warnings := if fromLeft then .first else .second

/-- The breadth-first search (Classify_faces_globally.h:86-98).  `fuel` bounds the number of iterations; `none` if it does not suffice. -/
def bfs (nbr : Nat → List Nat) : Nat → (Nat → Bool) → List Nat → Option (Nat → Bool)
  | _, visited, [] => some visited
  | 0, _, _ :: _ => none
  | fuel + 1, visited, f :: q =>
    let s := (nbr f).foldl (fun (s : (Nat → Bool) × List Nat) g => if s.1 g then s else (Flood.set s.1 g true, s.2 ++ [g])) (visited, q)
    bfs nbr fuel s.1 s.2

/-- `find_unclassified_connected_components` (Classify_faces_globally.h:57-102): the `for` loop resumes where it stopped (`begin = ++it`), so it is one pass over
the faces; each unvisited unclassified face becomes a representative and its component is searched. The first argument bounds the iterations of each search. -/
def components (nbr : Nat → List Nat) (tags : Nat → Tag) (fuel : Nat) : List Nat → (Nat → Bool) → Option (List Nat)
  | [], _ => some []
  | i :: is, visited =>
    if visited i then components nbr tags fuel is visited
    else if tags i = .unknown then
      match bfs nbr fuel (Flood.set visited i true) [i] with
      | none => none
      | some visited' => (components nbr tags fuel is visited').map (i :: ·)
    else components nbr tags fuel is (Flood.set visited i true)

/-- The representatives for a mesh with `n` faces; each search visits at most `n` faces. -/
def representatives (nbr : Nat → List Nat) (tags : Nat → Tag) (n : Nat) : Option (List Nat) :=
  components nbr tags n (List.range n) (fun _ => false)

/-- A possible result of the global classification (Classify_faces_globally.h:29-54): one flood per representative, all possibly interleaved
(`parallel_do` distributes them to threads); the tag of each representative is what `Side_of_triangle_soup` says about its centroid (`side`; `none` when
the centroid is on the boundary of the other operand, in which case the operation throws); warnings are combined in any order. -/
def Result (nbr : Nat → List Nat) (n : Nat) (side : Nat → Option Tag) (fromLeft : Nat → Bool) (tags0 tags : Nat → Tag) (w : Warnings) : Prop :=
  ∃ reps, representatives nbr tags0 n = some reps ∧ ∃ t : Nat → Tag, (∀ r ∈ reps, side r = some (t r)) ∧
    ∃ (k : Nat) (c : Flood.Cfg) (order : List Nat), Flood.Exec ⟨nbr, t⟩ reps tags0 k c ∧ Flood.AllDone reps c ∧ c.tags = tags ∧ order.Perm reps ∧
      w = order.foldl (fun w r => Warnings.or w (if c.warn r then flag (fromLeft r) else .none)) .none

end Kigumi.Global
