import Verif.Model.Soup
import Verif.Model.ParallelDo
import Verif.Model.TriangleRegion

/-!
# Corefinement: records, groups, triangulations and the mixed soup (include/kigumi/Corefine.h, Triangulation.h, Mix.h)

CGAL's constrained triangulation is represented by what is sent to it (vertices and constraints); whether a constraint meets an earlier one in its interior
(CGAL then throws) and which finite faces result are parameters of the model.
-/
namespace Kigumi.Corefine
open Kigumi Outcome

/-- `Intersection_info` (Corefine.h:244-249). -/
structure Info where
  left : Nat
  right : Nat
  syms : List Region.Code
  ids : List Nat
  deriving DecidableEq, Repr

/-- The grouping loop (Corefine.h:129-134 and 170-175).  `std::upper_bound(first + 1, end, *first)` finds the first element whose key is larger. -/
def ranges (key : Info → Nat) : List Info → List (List Info)
  | [] => []
  | x :: xs => (x :: xs.takeWhile (fun y => !(decide (key x < key y)))) :: ranges key (xs.dropWhile (fun y => !(decide (key x < key y))))
  termination_by l => l.length
  decreasing_by
    simp only [List.length_cons]
    have := (List.dropWhile_sublist (fun y => !(decide (key x < key y))) (l := xs)).length_le
    omega

/-- A vertex handle of the triangulation: one of the corners of the face, or the vertex made for a point id. -/
inductive Vh where
  | corner (k : Nat)
  | inner (id : Nat)
  deriving DecidableEq, Repr

/-- A triangulation of a face (Triangulation.h:135-138). -/
structure Cdt where
  /-- `f_` -/
  face : Region.Code
  /-- `info()` of the corners `vhs_` -/
  a : Nat
  b : Nat
  c : Nat
  /-- keys of `id_to_vh_` -/
  known : List Nat
  /-- constraints, in the order of insertion -/
  constraints : List (Vh × Vh)
  deriving DecidableEq, Repr

/-- Constructor (Triangulation.h:30-40). -/
def Cdt.new (face : Region.Code) (a b c : Nat) : Cdt := ⟨face, a, b, c, [], []⟩

/-- `vh->info()` (Triangulation.h:35-39, 106, 124). -/
def Cdt.info (t : Cdt) : Vh → Nat
  | .corner k => if k = 0 then t.a else if k = 1 then t.b else t.c
  | .inner id => id

/-- `insert_in_edge` and `insert_in_face` (Triangulation.h:95-129): one vertex per id. -/
def Cdt.insertInner (t : Cdt) (id : Nat) : Cdt × Vh :=
  if id ∈ t.known then (t, .inner id) else ({ t with known := t.known ++ [id] }, .inner id)

/-- `insert` (Triangulation.h:55-88). -/
def Cdt.insert (t : Cdt) (id : Nat) (region : Region.Code) : Outcome (Cdt × Vh) :=
  let r := Region.inter region t.face
  if r = Region.LV0 ∨ r = Region.RV0 then ok (t, .corner 0)
  else if r = Region.LV1 ∨ r = Region.RV1 then ok (t, .corner 1)
  else if r = Region.LV2 ∨ r = Region.RV2 then ok (t, .corner 2)
  else if r = Region.LE01 ∨ r = Region.RE01 then ok (t.insertInner id)
  else if r = Region.LE12 ∨ r = Region.RE12 then ok (t.insertInner id)
  else if r = Region.LE20 ∨ r = Region.RE20 then ok (t.insertInner id)
  else if r = Region.LF ∨ r = Region.RF then ok (t.insertInner id)
  else exn "invalid region"

/-- `insert_constraint` (Triangulation.h:90-92); `crosses` decides whether CGAL throws. -/
def Cdt.insertConstraint (crosses : Cdt → Vh → Vh → Bool) (t : Cdt) (i j : Vh) : Outcome Cdt :=
  if crosses t i j then exn "Intersection_of_constraints_exception" else ok { t with constraints := t.constraints ++ [(i, j)] }

/-- The loop of `insert_intersection` (Corefine.h:273-284) from position `i`, with `first` and `prev` (`none` for the null handle). -/
def insertLoop (crosses : Cdt → Vh → Vh → Bool) (info : Info) : Nat → Nat → Cdt → Option Vh → Option Vh → Outcome (Cdt × Option Vh × Option Vh)
  | 0, _, t, first, prev => ok (t, first, prev)
  | fuel + 1, i, t, first, prev => do
    let id ← at! info.ids i
    let sym ← at! info.syms i
    let (t, cur) ← t.insert id sym
    let t ← match prev with
      | some p => t.insertConstraint crosses p cur
      | none => ok t
    insertLoop crosses info fuel (i + 1) t (match first with | some f => some f | none => some cur) (some cur)

/-- `insert_intersection` (Corefine.h:269-288).  Passing a null handle to CGAL is undefined behaviour. -/
def insertIntersection (crosses : Cdt → Vh → Vh → Bool) (t : Cdt) (info : Info) : Outcome Cdt := do
  let (t, first, prev) ← insertLoop crosses info info.ids.length 0 t none none
  if info.ids.length > 2 then
    match prev, first with
    | some p, some f => t.insertConstraint crosses p f
    | _, _ => ub "null handle"
  else ok t

/-- All records of a range (Corefine.h:157-159). -/
def insertRange (crosses : Cdt → Vh → Vh → Bool) : List Info → Cdt → Outcome Cdt
  | [], t => ok t
  | x :: xs, t => do
    let t ← insertIntersection crosses t x
    insertRange crosses xs t

/-- The body of the parallel loops building triangulations (Corefine.h:145-159, 186-200) for a range: the face and its triangulation.
`ids` are the point ids of the vertices of the operand; reading the points themselves (`points_.at`) is part of the CGAL constructor. -/
def buildBody (crosses : Cdt → Vh → Vh → Bool) (faceCode : Region.Code) (key : Info → Nat) (faces : List (Tri Nat)) (ids : List Nat) (range : List Info) : Outcome (Nat × Cdt) :=
  match range with
  | [] => ub "front of an empty range"
  | x :: _ => do
    let f ← at! faces (key x)
    let a ← at! ids f.a
    let b ← at! ids f.b
    let c ← at! ids f.c
    let t ← insertRange crosses range (Cdt.new faceCode a b c)
    ok (key x, t)

/-- The map of triangulations: `none` = no entry, `some none` = entry without a value. -/
abbrev Slots := Nat → Option (Option Cdt)

/-- `emplace(fi, std::nullopt)` for every range (Corefine.h:136-141, 177-182). -/
def emplaceAll (key : Info → Nat) : List (List Info) → Slots → Slots
  | [], m => m
  | [] :: rs, m => emplaceAll key rs m
  | (x :: _) :: rs, m => emplaceAll key rs (fun fi => if fi = key x then (match m fi with | some v => some v | none => some none) else m fi)

/-- The loop as a call of `parallel_do` (Corefine.h:144-160): the state is not used, an exception of a body leaves the loop. -/
def buildLoop (crosses : Cdt → Vh → Vh → Bool) (faceCode : Region.Code) (key : Info → Nat) (faces : List (Tri Nat)) (ids : List Nat) (rs : List (List Info)) : ParallelDo.Params Unit String Unit where
  size := rs.length
  init := ()
  body i _ := match rs[i]? with
    | none => .error "unreachable"
    | some range => match buildBody crosses faceCode key faces ids range with
      | ok _ => .ok ()
      | exn e => .error e
      | ub e => .error e
  hasPost := false
  post g _ := (g, none)

/-- `at(fi).emplace(...)` by the bodies, in the order `log`. -/
def store (crosses : Cdt → Vh → Vh → Bool) (faceCode : Region.Code) (key : Info → Nat) (faces : List (Tri Nat)) (ids : List Nat) (rs : List (List Info)) : List Nat → Slots → Slots
  | [], m => m
  | i :: log, m => store crosses faceCode key faces ids rs log (match rs[i]? with
    | none => m
    | some range => match buildBody crosses faceCode key faces ids range with
      | ok (k, t) => fun fi => if fi = k then some (some t) else m fi
      | _ => m)

/-- `make_edge` (Mesh_entities.h:16-22). -/
def makeEdge (a b : Nat) : Nat × Nat := if a > b then (b, a) else (a, b)

/-- Inserting into a set of edges, as the list of its elements. -/
def insertEdge (s : List (Nat × Nat)) (e : Nat × Nat) : List (Nat × Nat) := if e ∈ s then s else s ++ [e]

/-- The inner loop of `get_intersecting_edges` (Corefine.h:216-221). -/
def edgesOf (ids : List Nat) : List Nat → List (Nat × Nat) → Outcome (List (Nat × Nat))
  | [], s => ok s
  | i :: is, s => do
    let j := if i < ids.length - 1 then i + 1 else 0
    let a ← at! ids i
    let b ← at! ids j
    edgesOf ids is (insertEdge s (makeEdge a b))

/-- `get_intersecting_edges` (Corefine.h:207-225). -/
def intersectingEdges : List Info → List (Nat × Nat) → Outcome (List (Nat × Nat))
  | [], s => ok s
  | x :: xs, s =>
    if x.ids.length < 2 then intersectingEdges xs s
    else do
      let s ← edgesOf x.ids (List.range x.ids.length) s
      intersectingEdges xs s

/-- `get_faces` (Corefine.h:251-267); `finite t` are the finite faces of the triangulation as ids (Triangulation.h:42-53). -/
def getFaces (finite : Cdt → List (Tri Nat)) (faces : List (Tri Nat)) (m : Slots) (ids : List Nat) (fi : Nat) : Outcome (List (Tri Nat)) :=
  match m fi with
  | some (some t) => ok (finite t)
  | some none => exn "bad_optional_access"
  | none => do
    let f ← at! faces fi
    let a ← at! ids f.a
    let b ← at! ids f.b
    let c ← at! ids f.c
    ok [⟨a, b, c⟩]

variable {D : Type}

/-- One of the assembly loops (Mix.h:39-43, 45-49). -/
def assemble (fromLeft : Bool) (finite : Cdt → List (Tri Nat)) (faces : List (Tri Nat)) (m : Slots) (ids : List Nat) (tags : List Tag) (data : List D) :
    List Nat → List (Tri Nat) → List (MixedData D) → Outcome (List (Tri Nat) × List (MixedData D))
  | [], fs, ds => ok (fs, ds)
  | fi :: fis, fs, ds => do
    let tag ← at! tags fi
    let pieces ← getFaces finite faces m ids fi
    let d ← at! data fi
    assemble fromLeft finite faces m ids tags data fis (fs ++ pieces) (ds ++ List.replicate pieces.length ⟨fromLeft, tag, d⟩)

/-- Both loops (Mix.h:36-49). -/
def mixedFaces (finite : Cdt → List (Tri Nat)) (left right : List (Tri Nat)) (lm rm : Slots) (lids rids : List Nat) (ltags rtags : List Tag) (ldata rdata : List D) :
    Outcome (List (Tri Nat) × List (MixedData D)) := do
  let (fs, ds) ← assemble true finite left lm lids ltags ldata (List.range left.length) [] []
  assemble false finite right rm rids rtags rdata (List.range right.length) fs ds

end Kigumi.Corefine
