import Verif.Model.Geometry
import Verif.Model.FaceFace
import Verif.Model.RegionBuilder
import Verif.Spec.Side

/-!
# The side of a point (include/kigumi/Side_of_triangle_soup.h, Region.h:61-77)

The intersection of a triangle and a ray, the query of the tree and `std::partial_sort` are parameters; `Env.Valid` says what is assumed of them.  `Verif.Model.SideTree` has the query of the tree.
The vectors that an object keeps between calls are cleared before use (lines 36-37) and are local here.
-/
namespace Kigumi.Side
open Kigumi Outcome Geo

/-- `std::optional<std::variant<Point, Segment>>`, the result of `CGAL::intersection(tri, ray)`. -/
inductive Hit
  | none
  | point (x : P3)
  | segment (x y : P3)
  deriving DecidableEq, Repr

/-- What is not modelled. -/
structure Env where
  /-- `CGAL::intersection(Triangle{a, b, c}, Ray{p, q})` -/
  inter : P3 → P3 → P3 → P3 → P3 → Hit
  /-- `tree.get_intersecting_leaves` for the ray from `p` through `q`: the faces of the leaves. -/
  leaves : P3 → P3 → Outcome (List Nat)
  /-- `std::partial_sort` of `intersections_` by distance, for the first two. -/
  partialSort : List (ℚ × Nat) → List (ℚ × Nat)

/-- The result describes the set of common points. -/
def Hit.Describes (A : P3 → Prop) : Hit → Prop
  | .none => ∀ x, ¬ A x
  | .point y => ∀ x, A x ↔ x = y
  | .segment y z => y ≠ z ∧ ∀ x, A x ↔ Spec.Triangles.OnSegment y z x

/-- What is assumed: the intersection is exact; the query returns every face that meets the ray, no face twice; the sort permutes the list and puts the two smallest first. -/
structure Env.Valid (E : Env) (ts : List (Tri P3)) : Prop where
  inter : ∀ t ∈ ts, ∀ p q, p ≠ q → (E.inter t.a t.b t.c p q).Describes (fun x => Spec.Side.In t x ∧ Spec.Side.OnRay p q x)
  leaves : ∀ p q, p ≠ q → ∃ l, E.leaves p q = ok l ∧ l.Nodup ∧ (∀ i ∈ l, i < ts.length) ∧
    ∀ i t x, ts[i]? = some t → Spec.Side.In t x → Spec.Side.OnRay p q x → i ∈ l
  perm : ∀ l, (E.partialSort l).Perm l
  sorted : ∀ l x y r, E.partialSort l = x :: y :: r → x.1 ≤ y.1 ∧ ∀ z ∈ r, y.1 ≤ z.1

/-- `CGAL::squared_distance` -/
def dist2 (p q : P3) : ℚ := dot (sub q p) (sub q p)

/-- `CGAL::centroid`, as in `face_centroid` (mesh_utility.h:28-32) -/
def centroid (a b c : P3) : P3 := ⟨(a.x + b.x + c.x) / 3, (a.y + b.y + c.y) / 3, (a.z + b.z + c.z) / 3⟩

/-- `soup.face(fi)` and the three calls of `soup.point` (Triangle_soup.h:110-112, mesh_utility.h:28-32, 40-46). -/
def corners {D : Type} (soup : Soup P3 D) (fi : Nat) : Outcome (Tri P3) := do
  let f ← at! soup.faces fi
  let a ← at! soup.points f.a
  let b ← at! soup.points f.b
  let c ← at! soup.points f.c
  ok ⟨a, b, c⟩

/-- `CGAL::Oriented_side` -/
inductive Oriented
  | negative | boundary | positive
  deriving DecidableEq, Repr

/-- The sign of an orientation as a side. -/
def Oriented.of (s : Int) : Oriented := if s < 0 then .negative else if s = 0 then .boundary else .positive

variable {D : Type}

/-- The loop over the leaves (Side_of_triangle_soup.h:48-69); `none` if the function returns ON_ORIENTED_BOUNDARY. -/
def scan (E : Env) (soup : Soup P3 D) (p q : P3) : List Nat → List (ℚ × Nat) → Outcome (Option (List (ℚ × Nat)))
  | [], acc => ok (some acc)
  | fi :: fis, acc => do
    let t ← corners soup fi
    match E.inter t.a t.b t.c p q with
    | .none => scan E soup p q fis acc
    | .point x => if x = p then ok none else scan E soup p q fis (acc ++ [(dist2 p x, fi)])
    | .segment x y => if x = p ∨ y = p then ok none else scan E soup p q fis acc

/-- One round of the loop over the faces (Side_of_triangle_soup.h:35-86); `none` for `continue`. -/
def attempt (E : Env) (soup : Soup P3 D) (p : P3) (target : Nat) : Outcome (Option Oriented) := do
  let t ← corners soup target
  let q := centroid t.a t.b t.c
  if p = q then ok (some .boundary)
  else do
    let fis ← E.leaves p q
    let r ← scan E soup p q fis []
    match r with
    | none => ok (some .boundary)
    | some [] => exn "cannot determine the side of the point"
    | some [(_, fi)] => do
      let t ← corners soup fi
      ok (some (.of (sgn (FaceFace.det4 t.a t.b t.c p))))
    | some l => do
      let l := E.partialSort l
      let x ← at! l 0
      let y ← at! l 1
      if x.1 = y.1 then ok none
      else do
        let t ← corners soup x.2
        ok (some (.of (sgn (FaceFace.det4 t.a t.b t.c p))))

/-- The loop over the faces. -/
def attempts (E : Env) (soup : Soup P3 D) (p : P3) : List Nat → Outcome Oriented
  | [] => exn "cannot determine the side of the point"
  | fi :: fis => do
    let r ← attempt E soup p fi
    match r with
    | some s => ok s
    | none => attempts E soup p fis

/-- `Side_of_triangle_soup::operator()` (Side_of_triangle_soup.h:28-91). -/
def sideOf (E : Env) (soup : Soup P3 D) (p : P3) : Outcome Oriented :=
  if soup.faces.length = 0 then exn "triangle soup must not be empty" else attempts E soup p (List.range soup.faces.length)

/-- `CGAL::Bounded_side` -/
inductive Bounded
  | unbounded | boundary | bounded
  deriving DecidableEq, Repr

/-- `Region::bounded_side` (Region.h:61-77). -/
def boundedSide (E : Env) (r : Region P3 D) (p : P3) : Outcome Bounded :=
  if r.isEmpty then ok .unbounded
  else if r.isFull then ok .bounded
  else do
    let s ← sideOf E r.boundary p
    match s with
    | .negative => ok .bounded
    | .positive => ok .unbounded
    | .boundary => ok .boundary

end Kigumi.Side
