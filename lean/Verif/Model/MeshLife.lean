import Verif.Model.Mesh

/-!
# Triangle meshes as objects (include/kigumi/Triangle_mesh.h)

A program that manipulates mesh variables through the public operations. Face data go along with the faces and are left out.
-/
namespace Kigumi.MeshLife
open Kigumi Outcome Kigumi.Mesh

variable {P : Type}

/-- `Triangle_mesh` (Triangle_mesh.h:205-209) without face data. -/
structure Obj (P : Type) where
  points : List P
  mesh : Mesh
  deriving DecidableEq, Repr

/-- `Triangle_mesh() = default` (Triangle_mesh.h:52); a mesh that was moved from has empty vectors, too. -/
def Obj.fresh : Obj P := ⟨[], ⟨[], [], []⟩⟩

/-- The public operations, on named mesh variables. -/
inductive Op (P : Type) where
  /-- construction from vectors (Triangle_mesh.h:90-91) -/
  | construct (v : Nat) (pts : List P) (fs : List (Tri Nat))
  /-- copy construction (Triangle_mesh.h:56-61) of a new `dst` -/
  | copyCtor (dst src : Nat)
  /-- move construction (Triangle_mesh.h:63-68) of a new `dst` -/
  | moveCtor (dst src : Nat)
  /-- copy assignment (Triangle_mesh.h:70-79) -/
  | copyAssign (dst src : Nat)
  /-- move assignment (Triangle_mesh.h:81-88) -/
  | moveAssign (dst src : Nat)
  /-- `add_vertex` (Triangle_mesh.h:93-96) -/
  | addVertex (v : Nat) (p : P)
  /-- `add_face` (Triangle_mesh.h:98-102) -/
  | addFace (v : Nat) (f : Tri Nat)
  /-- `finalize` (Triangle_mesh.h:104-134) -/
  | finalize (v : Nat)
  /-- `faces_around_edge` (Triangle_mesh.h:152-159), enumerated -/
  | aroundEdge (v a b : Nat)
  /-- `faces_around_face` (Triangle_mesh.h:161-175), enumerated -/
  | aroundFace (v : Nat) (border : List (Nat × Nat)) (fi : Nat)
  /-- `take_triangle_soup` (Triangle_mesh.h:200-202) -/
  | take (v : Nat)
  deriving DecidableEq, Repr

/-- What an operation returns, apart from indices of new vertices and faces. -/
inductive Out (P : Type) where
  | nothing
  | faces (l : List Nat)
  | soup (pts : List P) (fs : List (Tri Nat))
  deriving DecidableEq, Repr

abbrev Store (P : Type) := Nat → Obj P

def upd (s : Store P) (v : Nat) (x : Obj P) : Store P := fun w => if w = v then x else s w

/-- One operation; `sort` is `parallel_sort` (Triangle_mesh.h:117). Constructing a variable from itself is undefined behaviour; moving
a variable to itself leaves its vectors in an unspecified state (81-88 do not test for it), which is counted as undefined here. -/
def step (sort : List (Nat × Nat) → List (Nat × Nat)) (s : Store P) : Op P → Outcome (Store P × Out P)
  | .construct v pts fs => ok (upd s v ⟨pts, ofFaces fs⟩, .nothing)
  | .copyCtor d c => if d = c then ub "self construction" else ok (upd s d (s c), .nothing)
  | .moveCtor d c => if d = c then ub "self construction" else ok (upd (upd s d (s c)) c .fresh, .nothing)
  | .copyAssign d c => if d = c then ok (s, .nothing) else ok (upd s d (s c), .nothing)
  | .moveAssign d c => if d = c then ub "self move" else ok (upd (upd s d (s c)) c .fresh, .nothing)
  | .addVertex v p => ok (upd s v { s v with points := (s v).points ++ [p] }, .nothing)
  | .addFace v f => ok (upd s v { s v with mesh := { (s v).mesh with faces := (s v).mesh.faces ++ [f] } }, .nothing)
  | .finalize v => ok (upd s v { s v with mesh := Mesh.finalize (s v).mesh (sort (pairs 0 (s v).mesh.faces)) }, .nothing)
  | .aroundEdge v a b => do
    let l ← Mesh.aroundEdge (s v).mesh a b
    ok (s, .faces l)
  | .aroundFace v border fi => do
    let l ← Mesh.aroundFace (s v).mesh border fi
    ok (s, .faces l)
  | .take v => ok (upd s v ⟨[], { (s v).mesh with faces := [] }⟩, .soup (s v).points (s v).mesh.faces)

/-- Run a program; the list has, for every operation, the store in which it was called and what it returned. -/
def run (sort : List (Nat × Nat) → List (Nat × Nat)) : Store P → List (Op P) → Outcome (Store P × List (Store P × Op P × Out P))
  | s, [] => ok (s, [])
  | s, op :: ops => do
    let (s', out) ← step sort s op
    let (s'', log) ← run sort s' ops
    ok (s'', (s, op, out) :: log)

end Kigumi.MeshLife
