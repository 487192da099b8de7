import Verif.Model.Prelude

/-!
# Triangle meshes with adjacency (include/kigumi/Triangle_mesh.h, Mesh_iterators.h, Mesh_entities.h)
-/
namespace Kigumi.Mesh
open Kigumi Outcome

/-- The members of `Triangle_mesh` that adjacency queries use (Triangle_mesh.h:205-209): `faces_`, `indices_`, `face_indices_`. -/
structure Mesh where
  faces : List (Tri Nat)
  indices : List Nat
  faceIndices : List Nat
  deriving DecidableEq, Repr

/-- A mesh constructed from vectors (Triangle_mesh.h:90-91): the adjacency vectors are empty. -/
def ofFaces (fs : List (Tri Nat)) : Mesh := ⟨fs, [], []⟩

/-- The vertex/face pairs collected by `finalize` (Triangle_mesh.h:105-115), starting with face number `i`. -/
def pairs : Nat → List (Tri Nat) → List (Nat × Nat)
  | _, [] => []
  | i, f :: fs => (f.a, i) :: (f.b, i) :: (f.c, i) :: pairs (i + 1) fs

/-- `operator<` of `std::pair<Vertex_index, Face_index>`. -/
def pairLt (x y : Nat × Nat) : Prop := x.1 < y.1 ∨ (x.1 = y.1 ∧ x.2 < y.2)

/-- Loop state of `finalize`: `face_indices_`, `indices_`, `index`, `prev_v`. -/
structure Loop where
  faceIndices : List Nat
  indices : List Nat
  index : Nat
  prev : Int

/-- Body of the loop (Triangle_mesh.h:123-132). -/
def Loop.step (s : Loop) (p : Nat × Nat) : Loop :=
  { faceIndices := s.faceIndices ++ [p.2]
    indices := s.indices ++ List.replicate ((p.1 : Int) - s.prev).toNat s.index
    index := s.index + 1
    prev := p.1 }

/-- `finalize` (Triangle_mesh.h:104-134), given the result `sorted` of sorting the pairs.  The vectors are appended to, as in the code. -/
def finalize (m : Mesh) (sorted : List (Nat × Nat)) : Mesh :=
  let s := sorted.foldl Loop.step ⟨m.faceIndices, m.indices, 0, -1⟩
  { m with indices := s.indices ++ [s.index], faceIndices := s.faceIndices }

/-- `m` is a possible result of constructing a mesh with the faces `fs` (Mix.h:51) and finalising it once; the pairs are sorted by `parallel_sort`
(Triangle_mesh.h:117), whose contract is C16. -/
def Finalized (fs : List (Tri Nat)) (m : Mesh) : Prop :=
  ∃ sorted, sorted.Perm (pairs 0 fs) ∧ sorted.Pairwise (fun x y => ¬ pairLt y x) ∧ m = finalize (ofFaces fs) sorted

/-- The loop shared by the constructor and `increment` of `Face_around_edge_iterator` (Mesh_iterators.h:47-58, 72-83).
An iterator is represented by the lists still ahead of its two cursors. -/
def settle : List Nat → List Nat → List Nat × List Nat
  | [], _ => ([], [])
  | _ :: _, [] => ([], [])
  | i :: is, j :: js =>
    if i = j then (i :: is, j :: js)
    else if i < j then settle is (j :: js)
    else settle (i :: is) js
  termination_by is js => is.length + js.length

theorem settle_length (is js : List Nat) : (settle is js).1.length ≤ is.length := by
  fun_induction settle is js <;> simp_all <;> omega

/-- A range-for over `faces_around_edge`: dereference, `increment` (Mesh_iterators.h:64-84), until the first cursor is at its end
(`equal`, 86). -/
def collect (is js : List Nat) : List Nat :=
  match h : settle is js with
  | (i :: is', _ :: js') => i :: collect is' js'
  | _ => []
  termination_by is.length
  decreasing_by
    have := settle_length is js
    rw [h] at this
    simp at this
    omega

/-- The range `face_indices_[indices_.at(v)] .. face_indices_[indices_.at(v + 1)]` (Triangle_mesh.h:153-156).
A range that does not lie within the vector is undefined behaviour. -/
def vertexRange (m : Mesh) (v : Nat) : Outcome (List Nat) := do
  let a ← at! m.indices v
  let b ← at! m.indices (v + 1)
  if a ≤ b ∧ b ≤ m.faceIndices.length then ok ((m.faceIndices.drop a).take (b - a)) else ub "iterator range"

/-- `faces_around_edge` (Triangle_mesh.h:152-159), enumerated. -/
def aroundEdge (m : Mesh) (v w : Nat) : Outcome (List Nat) := do
  let is ← vertexRange m v
  let js ← vertexRange m w
  ok (collect is js)

/-- `make_edge` (Mesh_entities.h:16-22). -/
def makeEdge (v w : Nat) : Nat × Nat := if v > w then (w, v) else (v, w)

/-- `Face_around_face_iterator::dereference` (Mesh_iterators.h:159-170); `none` is the invalid index. -/
def deref (l1 l2 l3 : List Nat) : Option Nat :=
  match l1, l2, l3 with
  | x :: _, _, _ => some x
  | [], x :: _, _ => some x
  | [], [], x :: _ => some x
  | [], [], [] => none

/-- `Face_around_face_iterator::increment` (Mesh_iterators.h:137-153); the three edge iterators are represented by what they have still to
enumerate. -/
def increment (fi : Nat) : List Nat → List Nat → List Nat → List Nat × List Nat × List Nat
  | _ :: l1, l2, l3 => if deref l1 l2 l3 ≠ some fi then (l1, l2, l3) else increment fi l1 l2 l3
  | [], _ :: l2, l3 => if deref [] l2 l3 ≠ some fi then ([], l2, l3) else increment fi [] l2 l3
  | [], [], _ :: l3 => if deref [] [] l3 ≠ some fi then ([], [], l3) else increment fi [] [] l3
  | [], [], [] => ([], [], [])
  termination_by l1 l2 l3 => l1.length + l2.length + l3.length

theorem increment_length (fi : Nat) (l1 l2 l3 : List Nat) (h : l1 ≠ [] ∨ l2 ≠ [] ∨ l3 ≠ []) :
    (increment fi l1 l2 l3).1.length + (increment fi l1 l2 l3).2.1.length + (increment fi l1 l2 l3).2.2.length <
      l1.length + l2.length + l3.length := by
  fun_induction increment fi l1 l2 l3 with
  | case1 => simp_all
  | case2 x l1 l2 l3 _ ih =>
    by_cases hc : l1 ≠ [] ∨ l2 ≠ [] ∨ l3 ≠ []
    · have := ih hc; simp; omega
    · simp at hc; obtain ⟨rfl, rfl, rfl⟩ := hc; simp [deref] at *
  | case3 => simp_all
  | case4 x l2 l3 _ ih =>
    by_cases hc : ([] : List Nat) ≠ [] ∨ l2 ≠ [] ∨ l3 ≠ []
    · have := ih hc; simp at this ⊢; omega
    · simp at hc; obtain ⟨rfl, rfl⟩ := hc; simp [deref] at *
  | case5 => simp_all
  | case6 x l3 _ ih =>
    by_cases hc : ([] : List Nat) ≠ [] ∨ ([] : List Nat) ≠ [] ∨ l3 ≠ []
    · have := ih hc; simp at this ⊢; omega
    · simp at hc; subst hc; simp [deref] at *
  | case7 => simp at h

/-- A range-for over `Face_around_face_iterator`s: dereference and `increment` until all three edge iterators are at their ends (`equal`, 155-157). -/
def collect3 (fi : Nat) (l1 l2 l3 : List Nat) : List Nat :=
  match h : deref l1 l2 l3 with
  | none => []
  | some x => x :: collect3 fi (increment fi l1 l2 l3).1 (increment fi l1 l2 l3).2.1 (increment fi l1 l2 l3).2.2
  termination_by l1.length + l2.length + l3.length
  decreasing_by
    apply increment_length
    cases l1 <;> cases l2 <;> cases l3 <;> simp_all [deref]

/-- `faces_around_face` (Triangle_mesh.h:161-175), enumerated. -/
def aroundFace (m : Mesh) (border : List (Nat × Nat)) (fi : Nat) : Outcome (List Nat) := do
  let f ← at! m.faces fi
  let e1 := makeEdge f.a f.b
  let e2 := makeEdge f.b f.c
  let e3 := makeEdge f.c f.a
  let l1 ← aroundEdge m e1.1 e1.2
  let l2 ← aroundEdge m e2.1 e2.2
  let l3 ← aroundEdge m e3.1 e3.2
  ok (collect3 fi (if e1 ∈ border then [] else l1) (if e2 ∈ border then [] else l2) (if e3 ∈ border then [] else l3))

end Kigumi.Mesh
