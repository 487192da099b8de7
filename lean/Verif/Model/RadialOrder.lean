import Verif.Model.Geometry
import Verif.Model.ClassifyLocally

/-!
# Sorting the faces around an edge (include/kigumi/Classify_faces_locally.h:39-71, 182-242)
-/
namespace Kigumi.Radial
open Kigumi Geo Local

/-- `Face_around_edge` (Classify_faces_locally.h:182-194): the entry used by the classification, the direction `r` of the third vertex in the
plane orthogonal to the edge, and its radial bin. -/
structure FaceAround where
  entry : Entry
  dir : P2
  bin : Nat
  deriving DecidableEq, Repr

/-- `classify_radial_bin` (Classify_faces_locally.h:197-229) -/
def radialBin (r : P2) : Outcome Nat :=
  let u := sgn r.x
  let v := sgn r.y
  if u > 0 then
    if v > 0 then .ok 1 else if v < 0 then .ok 7 else .ok 0
  else if u < 0 then
    if v > 0 then .ok 3 else if v < 0 then .ok 5 else .ok 4
  else if v > 0 then .ok 2 else if v < 0 then .ok 6 else .exn "degenerate face"

/-- One round of the loop that fills `faces_` (Classify_faces_locally.h:46-67); `pts` are the points of the mesh, `u` and `v` the base vectors. -/
def mkFace (pts : Nat → P3) (u v : P3) (p q : Nat) (fi : Nat) (f : Tri Nat) : Outcome FaceAround := do
  let e ← mkEntry p q fi f
  let w := sub (pts e.r) (pts p)
  let d : P2 := ⟨dot w u, dot w v⟩
  let b ← radialBin d
  .ok ⟨e, d, b⟩

/-- The whole loop (Classify_faces_locally.h:45-67) for the faces around the edge with their indices. -/
def mkFaces (pts : Nat → P3) (u v : P3) (p q : Nat) : List (Nat × Tri Nat) → Outcome (List FaceAround)
  | [] => .ok []
  | (fi, f) :: fs => do
    let e ← mkFace pts u v p q fi f
    let es ← mkFaces pts u v p q fs
    .ok (e :: es)

/-- `Radial_ordering` (Classify_faces_locally.h:232-242) -/
def radialLt (f g : FaceAround) : Bool :=
  if f.entry.r = g.entry.r then false
  else if f.bin ≠ g.bin then decide (f.bin < g.bin)
  else decide (sgn (det2 f.dir g.dir) > 0)

/-- `base1()` and `base2()` of `Plane_3{p, n}` (CGAL, used in Classify_faces_locally.h:41-43): `base1` is any non-zero vector orthogonal to the normal `n`, `base2` is
`n × base1`. CGAL's choice of `base1` is not modelled. -/
def IsBase (n u v : P3) : Prop := dot u n = 0 ∧ u ≠ ⟨0, 0, 0⟩ ∧ v = cross n u

/-- What `std::sort` promises for a strict weak order: a permutation without a later element that is smaller than an earlier one. -/
def IsSortOf (lt : FaceAround → FaceAround → Bool) (l s : List FaceAround) : Prop := s.Perm l ∧ s.Pairwise (fun a b => lt b a = false)

end Kigumi.Radial
