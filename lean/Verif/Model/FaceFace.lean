import Verif.Model.Geometry
import Verif.Model.TriangleRegion

/-!
# Symbolic intersection of two triangles (include/kigumi/Face_face_intersection.h)

The points are exact rationals (`Point_list::at` throws when the index is out of range).  CGAL's predicates are modelled by their definitions.  The hash map of orientations is a finite map.
The functions that append to `intersections_` return the list of the appended pairs instead; the caller concatenates.
-/
namespace Kigumi.FaceFace
open Kigumi Outcome Geo Region

/-- `CGAL::orientation(p, q, r, s)` before taking the sign: the determinant of `q - p`, `r - p`, `s - p`. -/
def det4 (p q r s : P3) : ℚ := dot (cross (sub q p) (sub r p)) (sub s p)

/-- Orientation of the projections of three points to a coordinate plane (CGAL `orientationC2`), before taking the sign. -/
def detXY (p q r : P3) : ℚ := (q.x - p.x) * (r.y - p.y) - (r.x - p.x) * (q.y - p.y)
def detYZ (p q r : P3) : ℚ := (q.y - p.y) * (r.z - p.z) - (r.y - p.y) * (q.z - p.z)
def detXZ (p q r : P3) : ℚ := (q.x - p.x) * (r.z - p.z) - (r.x - p.x) * (q.z - p.z)

/-- `CGAL::coplanar_orientation(p, q, r)`: the first of the three projections that is not degenerate (CGAL `coplanar_orientationC3`). -/
def coplanarOrientation (p q r : P3) : Int :=
  if sgn (detXY p q r) ≠ 0 then sgn (detXY p q r)
  else if sgn (detYZ p q r) ≠ 0 then sgn (detYZ p q r)
  else sgn (detXZ p q r)

/-- `CGAL::compare_lexicographically(p, q)` with SMALLER = -1, EQUAL = 0, LARGER = 1. -/
def compareLex (p q : P3) : Int :=
  if sgn (p.x - q.x) ≠ 0 then sgn (p.x - q.x)
  else if sgn (p.y - q.y) ≠ 0 then sgn (p.y - q.y)
  else sgn (p.z - q.z)

/-- `Orientation_3_key` (Face_face_intersection.h:20). -/
structure Key where
  k0 : Nat
  k1 : Nat
  k2 : Nat
  k3 : Nat
  deriving DecidableEq, Repr

/-- `ids.at(i)` for `i < 4`. -/
def Key.get (k : Key) : Nat → Nat
  | 0 => k.k0
  | 1 => k.k1
  | 2 => k.k2
  | _ => k.k3

/-- `std::swap(ids.at(j + 1), ids.at(j))` for `j < 3`. -/
def Key.swap (k : Key) : Nat → Key
  | 0 => ⟨k.k1, k.k0, k.k2, k.k3⟩
  | 1 => ⟨k.k0, k.k2, k.k1, k.k3⟩
  | _ => ⟨k.k0, k.k1, k.k3, k.k2⟩

/-- The inner loop of `sort` (Face_face_intersection.h:296-300). -/
def sift : Nat → Key → Int → Key × Int
  | 0, k, parity => (k, parity)
  | j + 1, k, parity => if k.get (j + 1) > k.get j then sift j (k.swap j) (-parity) else (k, parity)

/-- `sort` (Face_face_intersection.h:291-303) for four ids. -/
def sort (k : Key) : Key × Int :=
  let (k, s) := sift 1 k 1
  let (k, s) := sift 2 k s
  sift 3 k s

/-- `orientation_3_cache_`. -/
abbrev Cache := List (Key × Int)

def Cache.find (c : Cache) (k : Key) : Option Int :=
  match c with
  | [] => none
  | (k', v) :: c => if k' = k then some v else Cache.find c k

/-- Computations that use the cache. -/
abbrev M := StateT Cache Outcome

/-- A call that does not use the cache. -/
def lift {α : Type} (x : Outcome α) : M α := fun c => x.bind (fun a => ok (a, c))

/-- `orientation` of two points (Face_face_intersection.h:305-309). -/
def orientation2 (pts : List P3) (a b : Nat) : M Int := lift do
  let pa ← at! pts a
  let pb ← at! pts b
  ok (compareLex pa pb)

/-- `orientation` of three points (Face_face_intersection.h:311-316). -/
def orientation3 (pts : List P3) (a b c : Nat) : M Int := lift do
  let pa ← at! pts a
  let pb ← at! pts b
  let pc ← at! pts c
  ok (coplanarOrientation pa pb pc)

/-- `orientation` of four points (Face_face_intersection.h:318-334). -/
def orientation4 (pts : List P3) (a b c d : Nat) : M Int := fun cache =>
  let (key, parity) := sort ⟨a, b, c, d⟩
  match cache.find key with
  | some o => ok (parity * o, cache)
  | none => do
    let pa ← at! pts key.k0
    let pb ← at! pts key.k1
    let pc ← at! pts key.k2
    let pd ← at! pts key.k3
    let o := sgn (det4 pa pb pc pd)
    ok (parity * o, (key, o) :: cache)

/-- A pair of simplices, the left one first. -/
abbrev Hit := Code × Code

/-- `insert` (Face_face_intersection.h:336-342). -/
def insert (first second : Code) : Hit := if !isLeft first then (second, first) else (first, second)

/-- `edge_edge_intersection_1d` (Face_face_intersection.h:268-289). -/
def edgeEdge1d (pts : List P3) (eab : Code) (a : Nat) (epq : Code) (p q : Nat) : M (List Hit) := do
  let (va, _) ← lift (edgeVertices eab)
  let (vp, _) ← lift (edgeVertices epq)
  let ap ← orientation2 pts a p
  let aq ← orientation2 pts a q
  if ap * aq > 0 then return []
  else if ap * aq < 0 then return [insert va epq]
  else if ap = 0 ∧ isLeft va = true then return [insert va vp]
  else return []

/-- Cases 2 and 3 and the insertion (Face_face_intersection.h:158-168, 250-260). -/
def emit (first second : Code) : M (List Hit) := do
  let d1 ← lift (dimension first)
  let d2 ← lift (dimension second)
  if d1 = 1 ∧ d2 = 0 then return []
  else if d1 = d2 ∧ isLeft first = false then return []
  else return [insert first second]

/-- `edge_edge_intersection_2d` (Face_face_intersection.h:217-261). -/
def edgeEdge2d (pts : List P3) (eab : Code) (a : Nat) (epq : Code) (p q : Nat) (abp abq apq bpq : Int) : M (List Hit) :=
  if abp * abq > 0 ∨ apq * bpq > 0 then return []
  else if abp = 0 ∧ abq = 0 then edgeEdge1d pts eab a epq p q
  else do
    let (va, _) ← lift (edgeVertices eab)
    let (vp, _) ← lift (edgeVertices epq)
    if apq ≠ 0 ∧ bpq = 0 then return []
    else
      let first := if apq = 0 then va else eab
      if abp ≠ 0 ∧ abq = 0 then return []
      else
        let second := if abp = 0 then vp else epq
        emit first second

/-- `edge_face_intersection_2d` (Face_face_intersection.h:176-210). -/
def edgeFace2d (pts : List P3) (eab : Code) (a b : Nat) (fpqr : Code) (p q r : Nat) : M (List Hit) := do
  let (va, _) ← lift (edgeVertices eab)
  let apq ← orientation3 pts a p q
  let aqr ← orientation3 pts a q r
  let arp ← orientation3 pts a r p
  let bpq ← orientation3 pts b p q
  let bqr ← orientation3 pts b q r
  let brp ← orientation3 pts b r p
  let inA := decide (apq * aqr > 0 ∧ aqr * arp > 0 ∧ arp * apq > 0)
  let inB := decide (bpq * bqr > 0 ∧ bqr * brp > 0 ∧ brp * bpq > 0)
  let hits := if inA then [insert va fpqr] else []
  if inA && inB then return hits
  else
    let (epq, eqr, erp) ← lift (faceEdges fpqr)
    let abp ← orientation3 pts a b p
    let abq ← orientation3 pts a b q
    let abr ← orientation3 pts a b r
    let h1 ← edgeEdge2d pts eab a epq p q abp abq apq bpq
    let h2 ← edgeEdge2d pts eab a eqr q r abq abr aqr bqr
    let h3 ← edgeEdge2d pts eab a erp r p abr abp arp brp
    return hits ++ h1 ++ h2 ++ h3

/-- `edge_face_intersection` (Face_face_intersection.h:109-169). -/
def edgeFace (pts : List P3) (eab : Code) (a b : Nat) (fpqr : Code) (p q r : Nat) (apqr bpqr : Int) : M (List Hit) :=
  if apqr * bpqr > 0 then return []
  else if apqr = 0 ∧ bpqr = 0 then edgeFace2d pts eab a b fpqr p q r
  else do
    let abpq ← orientation4 pts a b p q
    let abqr ← orientation4 pts a b q r
    let abrp ← orientation4 pts a b r p
    if abpq * abqr < 0 ∨ abqr * abrp < 0 ∨ abrp * abpq < 0 then return []
    else
      let (va, _) ← lift (edgeVertices eab)
      let (epq, eqr, erp) ← lift (faceEdges fpqr)
      let (vp, vq, vr) ← lift (faceVertices fpqr)
      if apqr ≠ 0 ∧ bpqr = 0 then return []
      else
        let first := if apqr = 0 then va else eab
        let second :=
          if abpq = 0 ∧ abqr = 0 then vq
          else if abqr = 0 ∧ abrp = 0 then vr
          else if abrp = 0 ∧ abpq = 0 then vp
          else if abpq = 0 then epq
          else if abqr = 0 then eqr
          else if abrp = 0 then erp
          else fpqr
        emit first second

/-- The pairs in `intersections_` after the six calls of `operator()` (Face_face_intersection.h:33-54). -/
def hits (pts : List P3) (a b c p q r : Nat) : M (List Hit) := do
  let (eab, ebc, eca) ← lift (faceEdges LF)
  let (epq, eqr, erp) ← lift (faceEdges RF)
  let apqr ← orientation4 pts a p q r
  let bpqr ← orientation4 pts b p q r
  let cpqr ← orientation4 pts c p q r
  let pabc ← orientation4 pts p a b c
  let qabc ← orientation4 pts q a b c
  let rabc ← orientation4 pts r a b c
  let h1 ← edgeFace pts eab a b RF p q r apqr bpqr
  let h2 ← edgeFace pts ebc b c RF p q r bpqr cpqr
  let h3 ← edgeFace pts eca c a RF p q r cpqr apqr
  let h4 ← edgeFace pts epq p q LF a b c pabc qabc
  let h5 ← edgeFace pts eqr q r LF a b c qabc rabc
  let h6 ← edgeFace pts erp r p LF a b c rabc pabc
  return h1 ++ h2 ++ h3 ++ h4 ++ h5 ++ h6

/-- `push_back` to a `static_vector` of capacity 6: throws when full. -/
def push6 {α : Type} (l : List α) (x : α) : Outcome (List α) := if l.length < 6 then ok (l ++ [x]) else exn "bad_alloc"

/-- `dimension(convex_hull(r, s)) == 1` -/
def hullIsEdge (r s : Code) : Outcome Bool := do
  let d ← dimension (hull r s)
  ok (d == 1)

/-- The condition for an entry of `edges` (Face_face_intersection.h:69-70); the second operand of `||` is evaluated only if the first is false. -/
def linked (ri rj : Hit) : Outcome Bool := do
  let l ← hullIsEdge ri.1 rj.1
  if l then ok true else hullIsEdge ri.2 rj.2

/-- The inner loop (Face_face_intersection.h:67-73). -/
def edgesFrom (hs : List Hit) (i : Nat) (ri : Hit) : List Nat → List (Nat × Nat) → Outcome (List (Nat × Nat))
  | [], edges => ok edges
  | j :: js, edges => do
    let rj ← at! hs j
    let l ← linked ri rj
    let edges ← if l then push6 edges (i, j) else ok edges
    edgesFrom hs i ri js edges

/-- The outer loop (Face_face_intersection.h:65-74); `is` are the remaining values of `i`. -/
def allEdges (hs : List Hit) : List Nat → List (Nat × Nat) → Outcome (List (Nat × Nat))
  | [], edges => ok edges
  | i :: is, edges => do
    let ri ← at! hs i
    let edges ← edgesFrom hs i ri ((List.range hs.length).drop (i + 1)) edges
    allEdges hs is edges

/-- The loop over the edges that chooses the next corner (Face_face_intersection.h:87-96). -/
def next (visited : List Bool) (i : Nat) : List (Nat × Nat) → Outcome Nat
  | [] => ok i
  | (j, k) :: es => do
    let seenK ← if j = i then at! visited k else ok true
    if j = i ∧ seenK = false then ok k
    else do
      let seenJ ← if k = i then at! visited j else ok true
      if k = i ∧ seenJ = false then ok j
      else next visited i es

/-- `while (true)` (Face_face_intersection.h:78-97); every round appends one element, so `n - result.size()` rounds remain. -/
def walk (hs : List Hit) (edges : List (Nat × Nat)) : Nat → List Bool → Nat → List Code → Outcome (List Code)
  | 0, _, _, result => ok result
  | fuel + 1, visited, i, result => do
    let inter ← at! hs i
    let result ← push6 result (hull inter.1 inter.2)
    let visited ← if i < visited.length then ok (visited.set i true) else exn "out_of_range"
    if result.length = hs.length then ok result
    else do
      let i ← next visited i edges
      walk hs edges fuel visited i result

/-- The second part of `operator()` (Face_face_intersection.h:56-100). -/
def order (hs : List Hit) : Outcome (List Code) :=
  if hs.length ≤ 2 then ok (hs.map (fun h => hull h.1 h.2))
  else do
    let edges ← allEdges hs (List.range (hs.length - 1)) []
    if 6 < hs.length then exn "bad_alloc"
    else walk hs edges hs.length (List.replicate hs.length false) 0 []

/-- `operator()` (Face_face_intersection.h:29-101). -/
def intersect (pts : List P3) (a b c p q r : Nat) : Outcome (List Code) := do
  let (hs, _) ← hits pts a b c p q r []
  order hs

end Kigumi.FaceFace
