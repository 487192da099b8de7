import Verif.Model.SoupCache
import Verif.Model.RegionBuilder

/-!
# Regions as objects (include/kigumi/Region.h)

A program that manipulates region variables through the public operations and catches exceptions.  `Region` has no special members of its own: copying and moving go member by member, and the
boundary copies and moves as `Triangle_soup` does (Triangle_soup.h:49-74), where the cached index is lost or goes along.  Operations that do not change a region ask for the index of its boundary
whenever they need it (`Req`).  Face data go along with the faces and are left out.
-/
namespace Kigumi.RegionLife
open Kigumi Outcome
open Kigumi.SoupCache (Leaf CSoup makeLeaves)

variable {P Q C A R : Type}

/-- What can be seen of a region: `is_empty()`, `is_full()` and `boundary()` (Region.h:57, 83-87). -/
structure Val (P : Type) where
  kind : Kind
  points : List P
  faces : List (Tri Nat)
  deriving DecidableEq, Repr

/-- `Region` (Region.h:96-97). -/
structure Obj (P : Type) where
  kind : Kind
  soup : CSoup P
  deriving DecidableEq, Repr

/-- Without the index. -/
def Obj.val (o : Obj P) : Val P := ⟨o.kind, o.soup.points, o.soup.faces⟩

/-- A new object, whose index has not been asked for. -/
def Obj.new (v : Val P) : Obj P := ⟨v.kind, ⟨v.points, v.faces, none⟩⟩

/-- What is left after moving: the kind is copied, the boundary is emptied (Triangle_soup.h:52-56, 68-74). -/
def Obj.moved (o : Obj P) : Obj P := ⟨o.kind, SoupCache.movedFrom⟩

/-- A computation with one or two regions that asks for their indexes now and then: `aabb_tree()` in Side_of_triangle_soup.h:33 and Find_possibly_intersecting_faces.h:32. -/
inductive Req (P R : Type) where
  | done (o : Outcome R)
  | ask (second : Bool) (k : List (Leaf P) → Req P R)

/-- The library: what does not change its operands. -/
structure Lib (P Q C A : Type) where
  /-- queries, like `bounded_side` (Region.h:61-77) -/
  query : Q → Val P → Req P A
  /-- operations, like Boolean ones (Boolean_region_builder.h:30-128) -/
  combine : C → Val P → Val P → Req P (Val P)

/-- The operations, on named region variables. -/
inductive Stmt (P Q C : Type) where
  /-- `v = Region::empty()` (Region.h:79), also `Region()` (Region.h:48) -/
  | empty (v : Nat)
  /-- `v = Region::full()` (Region.h:81) -/
  | full (v : Nat)
  /-- construction from a soup (Region.h:50-55) -/
  | ofSoup (v : Nat) (points : List P) (faces : List (Tri Nat))
  | copyCtor (dst src : Nat)
  | moveCtor (dst src : Nat)
  | copyAssign (dst src : Nat)
  | moveAssign (dst src : Nat)
  /-- `boundary_unsafe().add_vertex` (59, Triangle_soup.h:79-82) -/
  | addVertex (v : Nat) (p : P)
  /-- `boundary_unsafe().add_face` (59, Triangle_soup.h:84-88) -/
  | addFace (v : Nat) (f : Tri Nat)
  /-- `read_kigumi_region`, also if it fails: a new kind; some vertices and faces are appended (Region.h:108-114, Triangle_soup.h:185-229) -/
  | read (v : Nat) (kind : Kind) (points : List P) (faces : List (Tri Nat))
  | query (v : Nat) (q : Q)
  /-- `dst = operation(a, b)` -/
  | combine (dst : Nat) (c : C) (a b : Nat)

/-- What is seen of an operation. -/
inductive Out (A : Type) where
  | nothing
  | answer (a : A)
  | threw (msg : String)
  deriving DecidableEq, Repr

abbrev Store (P : Type) := Nat → Obj P

def upd (s : Store P) (v : Nat) (o : Obj P) : Store P := fun w => if w = v then o else s w

/-- `aabb_tree()` of the boundary (Triangle_soup.h:129-142). -/
def index (o : Obj P) : Outcome (Obj P × List (Leaf P)) :=
  match o.soup.tree with
  | some t => ok (o, t)
  | none => do
    let t ← makeLeaves o.soup.points 0 o.soup.faces
    ok ({ o with soup := { o.soup with tree := some t } }, t)

/-- A computation with the regions `a` and `b`; indexes remain also if it throws. -/
def exec (a b : Nat) : Req P R → Store P → Store P × Outcome R
  | .done o, s => (s, o)
  | .ask second k, s =>
    match index (s (if second then b else a)) with
    | ok (o, t) => exec a b (k t) (upd s (if second then b else a) o)
    | exn m => (s, exn m)
    | ub u => (s, ub u)

/-- One operation.  Constructing a variable from itself and moving a variable to itself are undefined behaviour. -/
def step (L : Lib P Q C A) (s : Store P) : Stmt P Q C → Outcome (Store P × Out A)
  | .empty v => ok (upd s v (.new ⟨.empty, [], []⟩), .nothing)
  | .full v => ok (upd s v (.new ⟨.full, [], []⟩), .nothing)
  | .ofSoup v ps fs => if fs.length = 0 then ok (s, .threw "region boundary must not be empty") else ok (upd s v (.new ⟨.boundaryDefined, ps, fs⟩), .nothing)
  | .copyCtor d c => if d = c then ub "self construction" else ok (upd s d (.new (s c).val), .nothing)
  | .moveCtor d c => if d = c then ub "self construction" else ok (upd (upd s d (s c)) c (s c).moved, .nothing)
  | .copyAssign d c => if d = c then ok (s, .nothing) else ok (upd s d (.new (s c).val), .nothing)
  | .moveAssign d c => if d = c then ub "self move" else ok (upd (upd s d (s c)) c (s c).moved, .nothing)
  | .addVertex v p => ok (upd s v ⟨(s v).kind, ⟨(s v).soup.points ++ [p], (s v).soup.faces, (s v).soup.tree⟩⟩, .nothing)
  | .addFace v f => ok (upd s v ⟨(s v).kind, ⟨(s v).soup.points, (s v).soup.faces ++ [f], (s v).soup.tree⟩⟩, .nothing)
  | .read v k ps fs => ok (upd s v ⟨k, ⟨(s v).soup.points ++ ps, (s v).soup.faces ++ fs, (s v).soup.tree⟩⟩, .nothing)
  | .query v q =>
    match exec v v (L.query q (s v).val) s with
    | (s, ok a) => ok (s, .answer a)
    | (s, exn m) => ok (s, .threw m)
    | (_, ub u) => ub u
  | .combine d c a b =>
    match exec a b (L.combine c (s a).val (s b).val) s with
    | (s, ok r) => ok (upd s d (.new r), .nothing)
    | (s, exn m) => ok (s, .threw m)
    | (_, ub u) => ub u

/-- A program. -/
def run (L : Lib P Q C A) : Store P → List (Stmt P Q C) → Outcome (Store P × List (Out A))
  | s, [] => ok (s, [])
  | s, op :: ops => do
    let (s, o) ← step L s op
    let (s, os) ← run L s ops
    ok (s, o :: os)

end Kigumi.RegionLife
