import Verif.Model.PointList
import Verif.Model.DenseGraph
import Verif.Model.ParallelDo
import Verif.Model.Geometry

/-!
# Defects (include/kigumi/Find_defects.h)

A soup is its points and its faces (face data are not used).  Overlapping faces are in Model/Overlaps.
-/
namespace Kigumi.Defects
open Kigumi Outcome

variable {P : Type}

/-- Vertex loop of `merge_duplicate_vertices` (Find_defects.h:77-85): the list of points, the points of the new soup and `vi_map`. -/
def mergePoints [DecidableEq P] : List P → PointList P → List P → List Nat → List P × List Nat
  | [], _, pts, map => (pts, map)
  | p :: ps, l, pts, map =>
    let next := l.points.length
    let (l', idx) := l.insert p
    mergePoints ps l' (if idx = next then pts ++ [p] else pts) (map ++ [idx])

/-- Face loop (Find_defects.h:87-91). -/
def mergeFaces (map : List Nat) : List (Tri Nat) → List (Tri Nat) → Outcome (List (Tri Nat))
  | [], acc => ok acc
  | f :: fs, acc => do
    let a ← at! map f.a
    let b ← at! map f.b
    let c ← at! map f.c
    mergeFaces map fs (acc ++ [⟨a, b, c⟩])

/-- `merge_duplicate_vertices` (Find_defects.h:69-94). -/
def merge [DecidableEq P] (pts : List P) (faces : List (Tri Nat)) : Outcome (List P × List (Tri Nat)) := do
  let (pts', map) := mergePoints pts (PointList.fresh : PointList P).startCheck [] []
  let faces' ← mergeFaces map faces []
  ok (pts', faces')

/-- `used.at(vi.idx()) = true` for a corner (Find_defects.h:101-103). -/
def markUsed : List Nat → List Bool → Outcome (List Bool)
  | [], used => ok used
  | v :: vs, used => if v < used.length then markUsed vs (used.set v true) else exn "out_of_range"

/-- The loop over the faces (Find_defects.h:100-104). -/
def usedLoop : List (Tri Nat) → List Bool → Outcome (List Bool)
  | [], used => ok used
  | f :: fs, used => do
    let used ← markUsed f.toList used
    usedLoop fs used

/-- The loop over the vertices (Find_defects.h:106-110). -/
def unusedLoop (used : List Bool) : List Nat → List Nat → Outcome (List Nat)
  | [], vis => ok vis
  | v :: vs, vis => do
    let u ← at! used v
    unusedLoop used vs (if !u then vis ++ [v] else vis)

/-- `isolated_vertices` (Find_defects.h:96-113) for `n` vertices. -/
def isolated (n : Nat) (faces : List (Tri Nat)) : Outcome (List Nat) := do
  let used ← usedLoop faces (List.replicate n false)
  unusedLoop used (List.range n) []

/-- The test for repeated vertices (Find_defects.h:121, 190, 250, 265). -/
def repeats (f : Tri Nat) : Bool := f.a == f.b || f.b == f.c || f.c == f.a

/-- `vf_map.at(v).push_back(fi)` (Find_defects.h:124-126). -/
def pushFace (vf : List (List Nat)) (v fi : Nat) : Outcome (List (List Nat)) := do
  let l ← at! vf v
  ok (vf.set v (l ++ [fi]))

/-- The loop filling `vf_map` (Find_defects.h:119-127), starting with face number `fi`. -/
def vfLoop : Nat → List (Tri Nat) → List (List Nat) → Outcome (List (List Nat))
  | _, [], vf => ok vf
  | fi, f :: fs, vf =>
    if repeats f then vfLoop (fi + 1) fs vf
    else do
      let vf ← pushFace vf f.a fi
      let vf ← pushFace vf f.b fi
      let vf ← pushFace vf f.c fi
      vfLoop (fi + 1) fs vf

/-- `next_vertex` (Find_defects.h:129-138). -/
def nextVertex (f : Tri Nat) (v : Nat) : Nat := if f.a = v then f.b else if f.b = v then f.c else f.a

/-- `prev_vertex` (Find_defects.h:140-149). -/
def prevVertex (f : Tri Nat) (v : Nat) : Nat := if f.a = v then f.c else if f.b = v then f.a else f.b

/-- `local_vis.emplace(v, local_vis.size())` (Find_defects.h:161-162); the map is the list of its entries. -/
def emplaceSize (m : List (Nat × Nat)) (v : Nat) : List (Nat × Nat) :=
  match PointList.find m v with
  | some _ => m
  | none => m ++ [(v, m.length)]

/-- The loop numbering the neighbours (Find_defects.h:160-163). -/
def localLoop (faces : List (Tri Nat)) (v : Nat) : List Nat → List (Nat × Nat) → Outcome (List (Nat × Nat))
  | [], m => ok m
  | fi :: fis, m => do
    let f ← at! faces fi
    localLoop faces v fis (emplaceSize (emplaceSize m (nextVertex f v)) (prevVertex f v))

/-- `local_vis.at(v)` (throws if there is no entry). -/
def atKey (m : List (Nat × Nat)) (v : Nat) : Outcome Nat :=
  match PointList.find m v with
  | some i => ok i
  | none => exn "out_of_range"

/-- The loop adding the edges (Find_defects.h:168-172). -/
def edgeLoop (faces : List (Tri Nat)) (v : Nat) (m : List (Nat × Nat)) : List Nat → DenseGraph.Graph → Outcome DenseGraph.Graph
  | [], g => ok g
  | fi :: fis, g => do
    let f ← at! faces fi
    let i ← atKey m (nextVertex f v)
    let j ← atKey m (prevVertex f v)
    let g ← DenseGraph.addEdge g i j
    edgeLoop faces v m fis g

/-- `g.is_connected()`, with a bound on the iterations of its loop. -/
def connected (fuel : Nat) (g : DenseGraph.Graph) : Outcome Bool :=
  match DenseGraph.isConnected g fuel with
  | some r => r
  | none => ub "fuel"

/-- `!g.is_simple() || !g.is_connected() || g.max_degree() > 2` (Find_defects.h:174). -/
def badGraph (fuel : Nat) (g : DenseGraph.Graph) : Outcome Bool := do
  let s ← DenseGraph.isSimple g
  if !s then ok true
  else do
    let c ← connected fuel g
    if !c then ok true
    else do
      let d ← DenseGraph.maxDegree g
      ok (decide (2 < d))

/-- The body of the loop over the vertices (Find_defects.h:152-176). -/
def vertexBad (fuel : Nat) (faces : List (Tri Nat)) (vf : List (List Nat)) (v : Nat) : Outcome Bool := do
  let fis ← at! vf v
  if fis.isEmpty then ok false
  else do
    let m ← localLoop faces v fis []
    let g ← edgeLoop faces v m fis (DenseGraph.create m.length)
    badGraph fuel g

/-- The loop over the vertices (Find_defects.h:151-177). -/
def badLoop (fuel : Nat) (faces : List (Tri Nat)) (vf : List (List Nat)) : List Nat → List Nat → Outcome (List Nat)
  | [], vis => ok vis
  | v :: vs, vis => do
    let b ← vertexBad fuel faces vf v
    badLoop fuel faces vf vs (if b then vis ++ [v] else vis)

/-- `non_manifold_vertices` (Find_defects.h:115-180) for `n` vertices. -/
def nonManifoldVertices (fuel n : Nat) (faces : List (Tri Nat)) : Outcome (List Nat) := do
  let vf ← vfLoop 0 faces (List.replicate n [])
  badLoop fuel faces vf (List.range n) []

/-- `Halfedge_count` (Find_defects.h:30): the entries of the map. -/
abbrev Counts := List ((Nat × Nat) × Nat)

/-- `++hes[he]` (Find_defects.h:195). -/
def incr : Counts → Nat × Nat → Counts
  | [], he => [(he, 1)]
  | (k, v) :: m, he => if k = he then (k, v + 1) :: m else (k, v) :: incr m he

/-- `collect_halfedges` (Find_defects.h:186-199). -/
def collect : List (Tri Nat) → Counts → Counts
  | [], m => m
  | f :: fs, m => if repeats f then collect fs m else collect fs (incr (incr (incr m (f.a, f.b)) (f.b, f.c)) (f.c, f.a))

/-- `opposite` (Find_defects.h:184). -/
def opp (he : Nat × Nat) : Nat × Nat := (he.2, he.1)

/-- `to_edge` (Find_defects.h:182) and `make_edge` (Mesh_entities.h:16-22). -/
def toEdge (he : Nat × Nat) : Nat × Nat := if he.1 > he.2 then (he.2, he.1) else (he.1, he.2)

/-- `boundary_edges` (Find_defects.h:201-211) and `inconsistent_edges` (Find_defects.h:213-223): edges used `k` times in one direction and not at all in the other.  `order` are the entries in the order of the iteration over the map. -/
def oneWay (k : Nat) (hes : Counts) (order : Counts) : List (Nat × Nat) :=
  order.filterMap (fun e => if e.2 = k ∧ PointList.find hes (opp e.1) = none then some (toEdge e.1) else none)

/-- `non_manifold_edges` (Find_defects.h:225-243). -/
def nonManifoldEdges (hes : Counts) (order : Counts) : List (Nat × Nat) :=
  order.filterMap (fun e =>
    let oppCount := (PointList.find hes (opp e.1)).getD 0
    if e.1.1 > e.1.2 ∧ oppCount > 0 then none
    else if e.2 + oppCount > 2 then some (toEdge e.1) else none)

/-- `trivial_degenerate_faces` (Find_defects.h:245-256), starting with face number `fi`. -/
def trivialLoop : Nat → List (Tri Nat) → List Nat → List Nat
  | _, [], fis => fis
  | fi, f :: fs, fis => trivialLoop (fi + 1) fs (if repeats f then fis ++ [fi] else fis)

/-- `Triangle_3::is_degenerate` (CGAL: the corners are collinear), with exact coordinates. -/
def collinear (a b c : Geo.P3) : Bool := decide (Geo.cross (Geo.sub b a) (Geo.sub c a) = ⟨0, 0, 0⟩)

/-- The body of the loop of `non_trivial_degenerate_faces` (Find_defects.h:263-272); `Except` because exceptions leave the loop body. -/
def degenerateBody (pts : List Geo.P3) (faces : List (Tri Nat)) (fi : Nat) (acc : List Nat) : Except String (List Nat) :=
  match faces[fi]? with
  | none => .error "out_of_range"
  | some f =>
    if repeats f then .ok acc
    else match pts[f.a]?, pts[f.b]?, pts[f.c]? with
      | some a, some b, some c => .ok (if collinear a b c then acc ++ [fi] else acc)
      | _, _, _ => .error "out_of_range"

/-- The loop of `non_trivial_degenerate_faces` (Find_defects.h:261-279). -/
def degenerateLoop (pts : List Geo.P3) (faces : List (Tri Nat)) : ParallelDo.Params (List Nat) String (List Nat) where
  size := faces.length
  init := []
  body := degenerateBody pts faces
  hasPost := true
  post g s := (if g.isEmpty then s else g ++ s, none)

end Kigumi.Defects
