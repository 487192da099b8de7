import Verif.Model.Corefine
import Verif.Model.Coplanar
import Verif.Model.Candidates
import Verif.Model.FaceFace
import Verif.Model.PointInserter
import Verif.Spec.Triangulation
import Verif.Spec.Ties
import Verif.Spec.Segments

/-!
# The constructor of `Corefine` and the mixed faces (include/kigumi/Corefine.h:42-205, Mix.h:32-54)

Executions are not determined by the operands: threads may interleave in any way, sorting may order equal keys in any way.  So the possible outcomes are a predicate.
-/
namespace Kigumi

/-- The possible outcomes of a computation that is not determined by its arguments. -/
abbrev Outcomes (α : Type) := Outcome α → Prop

namespace Outcomes
open Outcome
variable {α β : Type}

/-- One outcome. -/
def one (o : Outcome α) : Outcomes α := fun o' => o' = o

/-- A computation that returns some value with the property. -/
def any (p : α → Prop) : Outcomes α := fun o => ∃ a, p a ∧ o = ok a

/-- Sequencing. -/
def andThen (x : Outcomes α) (f : α → Outcomes β) : Outcomes β := fun o =>
  (∃ a, x (ok a) ∧ f a o) ∨ (∃ e, x (exn e) ∧ o = exn e) ∨ ∃ e, x (ub e) ∧ o = ub e

/-- A `try` block whose handler for the exception `e` throws `e'`. -/
def rename (e e' : String) (x : Outcomes α) : Outcomes α := fun o =>
  ∃ o', x o' ∧ o = match o' with | exn m => exn (if m = e then e' else m) | o' => o'

/-- A call of `parallel_do`; an exception is rethrown (parallel_do.h:71-73). -/
def parallel {S G : Type} (P : ParallelDo.Params S String G) (configured hardware : Nat) (g : G) : Outcomes (ParallelDo.Result String G) := fun o =>
  ∃ r, ParallelDo.Returns P configured hardware g r ∧ o = match r.exc with | some e => exn e | none => ok r

end Outcomes

namespace Coplanar
open Outcome

/-- The parallel loop over the faces of `b` (Find_coplanar_faces.h:47-62), without its writes, for which see `Returns`. -/
def loop (m : TriMap) (points : List Nat) (b : List (Tri Nat)) : ParallelDo.Params Unit String Unit where
  size := b.length
  init := ()
  body i _ := match b[i]? with
    | none => .error "unreachable"
    | some f => Candidates.toExcept ((body m points i f).bind fun _ => ok ())
  hasPost := false
  post g _ := (g, none)

/-- `operator()` (Find_coplanar_faces.h:24-65) with the ways in which it may fail: looking up a corner throws, in the first loop (Find_coplanar_faces.h:42-45) or in a thread of the second one. -/
def execute (configured hardware : Nat) (left right : List (Tri Nat)) (leftPoints rightPoints : List Nat) : Outcomes (List Tag × List Tag) :=
  let leftIsA := decide (left.length < right.length)
  Outcomes.andThen (Outcomes.one (buildMap (if leftIsA then leftPoints else rightPoints) 0 (if leftIsA then left else right) [])) fun m =>
  Outcomes.andThen (Outcomes.parallel (loop m (if leftIsA then rightPoints else leftPoints) (if leftIsA then right else left)) configured hardware ()) fun _ =>
  Outcomes.any fun t => Returns left right leftPoints rightPoints t.1 t.2

end Coplanar

namespace Corefine
open Kigumi Outcome
open Kigumi.Geo (P3)
open Kigumi.Spec (Box)
open Kigumi.Spec.Side (In Proper Triangulates)
open Kigumi.Spec.Triangles (Cross)
variable {D : Type}

/-- What CGAL, the standard library and the machine contribute. -/
structure Env where
  /-- constructions of points (Intersection_point_inserter.h) -/
  kernel : PointInserter.Kernel
  /-- boxes of the faces of the left (`true`) and the right operand in their trees, and when they are used as queries -/
  treeBoxes : Bool → List Box
  queryBoxes : Bool → List Box
  /-- what else the construction of a tree depends on, see `Candidates.Returns` -/
  arr : Nat → List (Nat × Box) → List (Nat × Box)
  limit : Nat
  nodes : Nat → AABB.Node (Option Box)
  dflt : Nat × Box
  /-- numbers of threads -/
  configured : Nat
  hardware : Nat
  /-- does inserting a constraint into a triangulation throw -/
  crosses : List P3 → Cdt → Vh → Vh → Bool

/-- Point ids of the corners of a face (Corefine.h:70-77, 103-110). -/
def faceIds (faces : List (Tri Nat)) (ids : List Nat) (fi : Nat) : Outcome (Tri Nat) := do
  let f ← at! faces fi
  let a ← at! ids f.a
  let b ← at! ids f.b
  let c ← at! ids f.c
  ok ⟨a, b, c⟩

/-- The body of the loop over the candidate pairs (Corefine.h:66-85).  The cache of orientations that a thread keeps between the calls of one operation does not change their results (C35), so every call starts with an empty one; that the `thread_local` object
outlives the operation is left out here (see C19);
the count of intersections is only used for reserving memory. -/
def symBody (points : List P3) (left right : List (Tri Nat)) (lids rids : List Nat) (pr : Nat × Nat) (s : List Info) : Outcome (List Info) := do
  let l ← faceIds left lids pr.1
  let r ← faceIds right rids pr.2
  let syms ← FaceFace.intersect points l.a l.b l.c r.a r.b r.c
  if syms.isEmpty then ok s else ok (s ++ [⟨pr.1, pr.2, syms, []⟩])

/-- The loop (Corefine.h:63-94). -/
def symLoop (points : List P3) (left right : List (Tri Nat)) (lids rids : List Nat) (pairs : List (Nat × Nat)) : ParallelDo.Params (List Info) String (List Info) where
  size := pairs.length
  init := []
  body i s := match pairs[i]? with
    | none => .error "unreachable"
    | some pr => Candidates.toExcept (symBody points left right lids rids pr s)
  hasPost := true
  post g s := (if g.isEmpty then s else g ++ s, none)

/-- The loop that constructs the points (Corefine.h:101-117). -/
def constructPoints (K : PointInserter.Kernel) (left right : List (Tri Nat)) (lids rids : List Nat) : PointInserter.State → List Info → Outcome (PointInserter.State × List Info)
  | st, [] => ok (st, [])
  | st, x :: xs => do
    let l ← faceIds left lids x.left
    let r ← faceIds right rids x.right
    let (st, ids) ← PointInserter.run K st (x.syms.map fun s => ⟨s, l, r⟩)
    let (st, xs) ← constructPoints K left right lids rids st xs
    ok (st, { x with ids := x.ids ++ ids } :: xs)

/-- The members after construction (Corefine.h:290-301). -/
structure State where
  points : List P3
  leftIds : List Nat
  rightIds : List Nat
  leftTags : List Tag
  rightTags : List Tag
  infos : List Info
  leftMap : Slots
  rightMap : Slots

/-- `std::sort` by a key (Corefine.h:127, 168): equal keys in any order. -/
def sortBy (key : Info → Nat) (infos : List Info) : Outcomes (List Info) := Outcomes.any fun s => s.Perm infos ∧ s.Pairwise (fun x y => ¬ key y < key x)

/-- Building the triangulations of one operand from the sorted records (Corefine.h:129-163, 170-204). -/
def buildAll (E : Env) (points : List P3) (faceCode : Region.Code) (key : Info → Nat) (faces : List (Tri Nat)) (ids : List Nat) (culprit : String) (sorted : List Info) : Outcomes Slots :=
  Outcomes.andThen (Outcomes.rename "Intersection_of_constraints_exception" culprit
    (Outcomes.parallel (buildLoop (E.crosses points) faceCode key faces ids (ranges key sorted)) E.configured E.hardware ())) fun r =>
  Outcomes.one (ok (store (E.crosses points) faceCode key faces ids (ranges key sorted) r.log (emplaceAll key (ranges key sorted) (fun _ => none))))

/-- The constructor (Corefine.h:42-205).  Computing exact coordinates in advance (Corefine.h:119-120) has no observable effect. -/
def construct (E : Env) (left right : Soup P3 D) : Outcomes State :=
  let pl := corefinePoints left.points right.points
  Outcomes.andThen (Coplanar.execute E.configured E.hardware left.faces right.faces pl.2.1 pl.2.2) fun tags =>
  Outcomes.andThen (fun o => ∃ r, Candidates.Returns E.arr E.limit E.configured E.hardware E.nodes E.dflt (E.treeBoxes true) (E.treeBoxes false) (E.queryBoxes true) (E.queryBoxes false) tags.1 tags.2 r ∧
    o = match r.exc with | some e => exn e | none => ok r.acc) fun pairs =>
  Outcomes.andThen (Outcomes.parallel (symLoop pl.1.points left.faces right.faces pl.2.1 pl.2.2 pairs) E.configured E.hardware []) fun found =>
  Outcomes.andThen (Outcomes.one (constructPoints E.kernel left.faces right.faces pl.2.1 pl.2.2 (PointInserter.start pl.1) found.acc)) fun made =>
  Outcomes.andThen (sortBy (·.left) made.2) fun byLeft =>
  Outcomes.andThen (buildAll E made.1.points.points Region.LF (·.left) left.faces pl.2.1 "the second mesh has self-intersections" byLeft) fun lm =>
  Outcomes.andThen (sortBy (·.right) byLeft) fun byRight =>
  Outcomes.andThen (buildAll E made.1.points.points Region.RF (·.right) right.faces pl.2.2 "the first mesh has self-intersections" byRight) fun rm =>
  Outcomes.one (ok ⟨made.1.points.points, pl.2.1, pl.2.2, tags.1, tags.2, byRight, lm, rm⟩)

/-! ## Contract of CGAL's constrained Delaunay triangulation -/

/-- Ids of the vertices of a triangulation. -/
def Cdt.vertexIds (t : Cdt) : List Nat := t.a :: t.b :: t.c :: t.known

/-- The points `x` and `y` are the ends of a constraint. -/
def Cdt.Constraint (points : List P3) (t : Cdt) (x y : P3) : Prop := ∃ e ∈ t.constraints, points[t.info e.1]? = some x ∧ points[t.info e.2]? = some y

/-- What the triangulation of the triangle `f` expects: vertices are different points of the triangle, and constraints join different vertices and do not cross. -/
structure Cdt.Expected (points : List P3) (t : Cdt) (f : Tri P3) : Prop where
  proper : Proper f
  corners : points[t.a]? = some f.a ∧ points[t.b]? = some f.b ∧ points[t.c]? = some f.c
  inside : ∀ id ∈ t.known, ∃ x, points[id]? = some x ∧ In f x
  distinct : (t.vertexIds.map (points[·]?)).Nodup
  ends : ∀ e ∈ t.constraints, t.info e.1 ∈ t.vertexIds ∧ t.info e.2 ∈ t.vertexIds ∧ t.info e.1 ≠ t.info e.2
  apart : ∀ c d c' d', t.Constraint points c d → t.Constraint points c' d' → ¬ Cross c d c' d'

/-- What the finite faces are: a constrained Delaunay triangulation of the face; vertices have the ids they were inserted with. -/
def Cdt.Correct (points : List P3) (t : Cdt) (f : Tri P3) (faces : List (Tri Nat)) : Prop :=
  (∀ g ∈ faces, ∀ v ∈ g.toList, v ∈ t.vertexIds) ∧
    ∃ ps, Spec.HasCorners points faces ps ∧ Triangulates f (fun x => ∃ id ∈ t.known, points[id]? = some x) (t.Constraint points) ps

/-- The same, with ties broken by the order of points of the face: four points on a circle may be triangulated in two ways (CGAL's triangulations are unique, since they compare points lexicographically, with respect to two directions that depend on the normal of
the face).  It is not known from the source of kigumi which order this is. -/
def Cdt.CorrectBy (ord : Tri P3 → P3 → P3 → Prop) (points : List P3) (t : Cdt) (f : Tri P3) (faces : List (Tri Nat)) : Prop :=
  (∀ g ∈ faces, ∀ v ∈ g.toList, v ∈ t.vertexIds) ∧
    ∃ ps, Spec.HasCorners points faces ps ∧ Triangulates f (fun x => ∃ id ∈ t.known, points[id]? = some x) (t.Constraint points) ps ∧
      Spec.Side.TiesBy (ord f) f (fun x => ∃ id ∈ t.known, points[id]? = some x) (t.Constraint points) ps

/-! ## The mixed faces -/

/-- `m` are the mixed faces and `border` are the intersecting edges that the corefinement of the operands may give (Mix.h:32-54).  `get_faces` gives the finite faces of the triangulations, which are correct if the
triangulation has been given what it expects; a set of edges is traversed in any order. -/
def GivesOf (correct : List P3 → Cdt → Tri P3 → List (Tri Nat) → Prop) (E : Env) (left right : Soup P3 D) (m : Soup P3 (MixedData D)) (border : List (Nat × Nat)) : Prop :=
  ∃ (s : State) (finite : Cdt → List (Tri Nat)) (fs : List (Tri Nat)) (ds : List (MixedData D)) (edges : List (Nat × Nat)), construct E left right (ok s) ∧
    (∀ t fi f, s.leftMap fi = some (some t) ∨ s.rightMap fi = some (some t) → t.Expected s.points f → correct s.points t f (finite t)) ∧
    mixedFaces finite left.faces right.faces s.leftMap s.rightMap s.leftIds s.rightIds s.leftTags s.rightTags left.data right.data = ok (fs, ds) ∧
    intersectingEdges s.infos [] = ok edges ∧ border.Perm edges ∧ m = ⟨s.points, fs, ds⟩

/-- With any constrained Delaunay triangulations. -/
def Gives (E : Env) (left right : Soup P3 D) (m : Soup P3 (MixedData D)) (border : List (Nat × Nat)) : Prop := GivesOf Cdt.Correct E left right m border

/-- With constrained Delaunay triangulations that break ties by the orders. -/
def GivesBy (ord : Tri P3 → P3 → P3 → Prop) (E : Env) (left right : Soup P3 D) (m : Soup P3 (MixedData D)) (border : List (Nat × Nat)) : Prop := GivesOf (Cdt.CorrectBy ord) E left right m border

end Corefine
end Kigumi
