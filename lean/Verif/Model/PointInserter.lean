import Verif.Model.PointList
import Verif.Model.TriangleRegion
import Verif.Model.Geometry

/-!
# Intersection points (include/kigumi/Intersection_point_inserter.h)

The hash maps are finite maps.  The two constructions of the kernel are parameters; what they promise is stated with the property.
-/
namespace Kigumi.PointInserter
open Kigumi Outcome Region
open Kigumi.Geo (P3)

/-- `Construct_line_line_intersection_point_3` and `Construct_plane_line_intersection_point_3` of the kernel. -/
structure Kernel where
  lineLine : P3 → P3 → P3 → P3 → P3
  planeLine : P3 → P3 → P3 → P3 → P3 → P3

/-- `Line_line_intersection_key` (Intersection_point_inserter.h:18). -/
structure LineKey where
  (a b p q : Nat)
  deriving DecidableEq, Repr

/-- `Plane_line_intersection_key` (Intersection_point_inserter.h:19). -/
structure PlaneKey where
  (a b c p q : Nat)
  deriving DecidableEq, Repr

/-- The members (Intersection_point_inserter.h:133-139); the points are referred to. -/
structure State where
  points : PointList P3
  lines : List (LineKey × Nat)
  planes : List (PlaneKey × Nat)

/-- `insert_line_line_intersection` (Intersection_point_inserter.h:68-97). -/
def insertLineLine (K : Kernel) (st : State) (a b p q : Nat) : Outcome (State × Nat) :=
  let (a, b) := if a > b then (b, a) else (a, b)
  let (p, q) := if p > q then (q, p) else (p, q)
  let (a, b, p, q) := if a > p then (p, q, a, b) else (a, b, p, q)
  match PointList.find st.lines ⟨a, b, p, q⟩ with
  | some id => ok (st, id)
  | none =>
    (at! st.points.points a).bind fun pa => (at! st.points.points b).bind fun pb => (at! st.points.points p).bind fun pp => (at! st.points.points q).bind fun pq =>
      let (l, id) := st.points.insert (K.lineLine pa pb pp pq)
      ok ({ st with points := l, lines := st.lines ++ [(⟨a, b, p, q⟩, id)] }, id)

/-- `insert_plane_line_intersection` (Intersection_point_inserter.h:99-131). -/
def insertPlaneLine (K : Kernel) (st : State) (a b c p q : Nat) : Outcome (State × Nat) :=
  let (a, b) := if a > b then (b, a) else (a, b)
  let (a, c) := if a > c then (c, a) else (a, c)
  let (b, c) := if b > c then (c, b) else (b, c)
  let (p, q) := if p > q then (q, p) else (p, q)
  match PointList.find st.planes ⟨a, b, c, p, q⟩ with
  | some id => ok (st, id)
  | none =>
    (at! st.points.points a).bind fun pa => (at! st.points.points b).bind fun pb => (at! st.points.points c).bind fun pc =>
      (at! st.points.points p).bind fun pp => (at! st.points.points q).bind fun pq =>
        let (l, id) := st.points.insert (K.planeLine pa pb pc pp pq)
        ok ({ st with points := l, planes := st.planes ++ [(⟨a, b, c, p, q⟩, id)] }, id)

/-- `insert` (Intersection_point_inserter.h:26-65): the new state and the id. -/
def insert (K : Kernel) (st : State) (left : Code) (a b c : Nat) (right : Code) (p q r : Nat) : Outcome (State × Nat) :=
  if left = LV0 then ok (st, a)
  else if left = LV1 then ok (st, b)
  else if left = LV2 then ok (st, c)
  else if right = RV0 then ok (st, p)
  else if right = RV1 then ok (st, q)
  else if right = RV2 then ok (st, r)
  else
    let (a, b, c) := if left = LE12 then (b, c, a) else if left = LE20 then (c, a, b) else (a, b, c)
    let (p, q, r) := if right = RE12 then (q, r, p) else if right = RE20 then (r, p, q) else (p, q, r)
    if left = LF then insertPlaneLine K st a b c p q
    else if right = RF then insertPlaneLine K st p q r a b
    else insertLineLine K st a b p q

/-- A call: the code of a symbolic intersection and the point ids of both faces. -/
structure Call where
  code : Code
  left : Tri Nat
  right : Tri Nat
  deriving DecidableEq, Repr

/-- One call (Corefine.h:111-116). -/
def call (K : Kernel) (st : State) (x : Call) : Outcome (State × Nat) :=
  insert K st (inter x.code LF) x.left.a x.left.b x.left.c (inter x.code RF) x.right.a x.right.b x.right.c

/-- A new inserter for a list of points (Intersection_point_inserter.h:24, Corefine.h:101). -/
def start (points : PointList P3) : State := ⟨points, [], []⟩

/-- Several calls; the ids returned (Corefine.h:102-117: all symbolic intersections of all records in turn). -/
def run (K : Kernel) : State → List Call → Outcome (State × List Nat)
  | st, [] => ok (st, [])
  | st, x :: xs => (call K st x).bind fun (st, id) => (run K st xs).bind fun (st, ids) => ok (st, id :: ids)

end Kigumi.PointInserter
