import Verif.Model.Prelude

/-!
# Soups with their cached spatial index (include/kigumi/Triangle_soup.h)

A program manipulating soup variables through the public operations.  The cached tree is represented by what it was built from: for each leaf
the face number and the corner coordinates from which its box was computed (the box is a function of the coordinates;
queries on the tree are C20).  Face data do not influence the index and are left out.
-/
namespace Kigumi.SoupCache
open Kigumi Outcome

variable {P : Type}

/-- A leaf: face number and the corners its box was computed from (Triangle_soup.h:33-43, 136). -/
abbrev Leaf (P : Type) := Nat × Tri P

/-- `Triangle_soup` (Triangle_soup.h:145-149) without face data. -/
structure CSoup (P : Type) where
  points : List P
  faces : List (Tri Nat)
  tree : Option (List (Leaf P))
  deriving DecidableEq, Repr

/-- `Triangle_soup() = default` (Triangle_soup.h:45). -/
def CSoup.fresh : CSoup P := ⟨[], [], none⟩

/-- The corners of a face (`face_bbox`, mesh_utility.h:21-26: `m.point(f[i])` uses `at`). -/
def corners (pts : List P) (f : Tri Nat) : Outcome (Tri P) := do
  let a ← at! pts f.a
  let b ← at! pts f.b
  let c ← at! pts f.c
  ok ⟨a, b, c⟩

/-- The loop of `aabb_tree` (Triangle_soup.h:133-137), starting with face number `i`. -/
def makeLeaves (pts : List P) : Nat → List (Tri Nat) → Outcome (List (Leaf P))
  | _, [] => ok []
  | i, f :: fs => do
    let t ← corners pts f
    let ls ← makeLeaves pts (i + 1) fs
    ok ((i, t) :: ls)

/-- The public operations, on named soup variables. -/
inductive Op (P : Type) where
  /-- `add_vertex` (Triangle_soup.h:79-82) -/
  | addVertex (v : Nat) (p : P)
  /-- `add_face` (Triangle_soup.h:84-88) -/
  | addFace (v : Nat) (f : Tri Nat)
  /-- construction from vectors (Triangle_soup.h:76-77) -/
  | construct (v : Nat) (pts : List P) (fs : List (Tri Nat))
  /-- copy construction (Triangle_soup.h:49-50) of a new `dst` -/
  | copyCtor (dst src : Nat)
  /-- move construction (Triangle_soup.h:52-56) of a new `dst` -/
  | moveCtor (dst src : Nat)
  /-- copy assignment (Triangle_soup.h:58-66) -/
  | copyAssign (dst src : Nat)
  /-- move assignment (Triangle_soup.h:68-74) -/
  | moveAssign (dst src : Nat)
  /-- `aabb_tree()` (Triangle_soup.h:129-142), the index every query of the library goes through -/
  | index (v : Nat)
  deriving DecidableEq, Repr

abbrev Store (P : Type) := Nat → CSoup P

def upd (s : Store P) (v : Nat) (x : CSoup P) : Store P := fun w => if w = v then x else s w

/-- A moved-from soup: empty vectors, null tree. -/
def movedFrom : CSoup P := ⟨[], [], none⟩

/-- One operation; `index` also outputs the leaves of the index it returns.
Constructing a variable from itself and moving a variable to itself are undefined behaviour. -/
def step (s : Store P) : Op P → Outcome (Store P × Option (List (Leaf P)))
  | .addVertex v p => ok (upd s v { s v with points := (s v).points ++ [p] }, none)
  | .addFace v f => ok (upd s v { s v with faces := (s v).faces ++ [f] }, none)
  | .construct v pts fs => ok (upd s v ⟨pts, fs, none⟩, none)
  | .copyCtor d c => if d = c then ub "self construction" else ok (upd s d ⟨(s c).points, (s c).faces, none⟩, none)
  | .moveCtor d c => if d = c then ub "self construction" else ok (upd (upd s d (s c)) c movedFrom, none)
  | .copyAssign d c => if d = c then ok (s, none) else ok (upd s d ⟨(s c).points, (s c).faces, none⟩, none)
  | .moveAssign d c => if d = c then ub "self move" else ok (upd (upd s d (s c)) c movedFrom, none)
  | .index v =>
    match (s v).tree with
    | some t => ok (s, some t)
    | none => do
      let t ← makeLeaves (s v).points 0 (s v).faces
      ok (upd s v { s v with tree := some t }, some t)

/-- Run a program; the list collects, for every `index` call, the variable and the leaves returned together with the store in which
it was called. -/
def run : Store P → List (Op P) → Outcome (Store P × List (Store P × Nat × List (Leaf P)))
  | s, [] => ok (s, [])
  | s, op :: ops => do
    let (s', out) ← step s op
    let (s'', log) ← run s' ops
    match out, op with
    | some t, .index v => ok (s'', (s, v, t) :: log)
    | _, _ => ok (s'', log)

end Kigumi.SoupCache
