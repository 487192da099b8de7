import Verif.Model.RadialOrder
import Verif.Model.ClassifyGlobally
import Verif.Model.Side
import Verif.Model.RegionBuilder

/-!
# Classification of the faces of the mixed mesh (include/kigumi/Mix.h:51-75)

The assembly of the faces (Mix.h:36-49) is `Corefine.mixedFaces`. The result is a relation: threads may interleave in any way.
-/
namespace Kigumi.Mix
open Kigumi Outcome Geo Local Radial Global

variable {D : Type}

/-- What CGAL and the standard library contribute: the base vectors of the plane with a given normal, sorting, and for each operand what the search for the side of a point needs. -/
structure Env where
  /-- `Plane_3{p, n}.base1()`, `base2()` (Classify_faces_locally.h:41-43) -/
  base : P3 → P3 × P3
  /-- `std::sort(faces_.begin(), faces_.end(), Radial_ordering{})` (Classify_faces_locally.h:71) -/
  sort : List FaceAround → List FaceAround
  /-- intersections with rays, for the first operand (`true`) and the second -/
  side : Bool → Side.Env

/-- The point of a vertex; the value for numbers out of range is never used for a face. -/
def pts (points : List P3) (v : Nat) : P3 := points.getD v ⟨0, 0, 0⟩

/-- `from_left` of a face. -/
def owner (data : List (MixedData D)) (i : Nat) : Bool := (data[i]?.map (·.fromLeft)).getD true

/-- `tag` of a face. -/
def tag (data : List (MixedData D)) (i : Nat) : Tag := (data[i]?.map (·.tag)).getD .unknown

/-- What the traversals see of a finalised mesh. -/
def env (fs : List (Tri Nat)) (m : Mesh.Mesh) (border : List (Nat × Nat)) (owner : Nat → Bool) : Local.Env :=
  ⟨fs.length, fun i => match Mesh.aroundFace m border i with | ok l => l | _ => [], owner⟩

/-- The faces around an edge with their numbers (Classify_faces_locally.h:46-48). -/
def numbered (fs : List (Tri Nat)) : List Nat → Outcome (List (Nat × Tri Nat))
  | [] => ok []
  | i :: is => do
    let f ← at! fs i
    let l ← numbered fs is
    ok ((i, f) :: l)

/-- What the call for one edge works on (Classify_faces_locally.h:28-71): the faces around the edge and the sorted entries, `none` if making one of them throws. -/
def edgeInput (E : Env) (fs : List (Tri Nat)) (m : Mesh.Mesh) (pts : Nat → P3) (e : Nat × Nat) : Outcome (List Nat × Option (List Entry)) := do
  let around ← Mesh.aroundEdge m e.1 e.2
  let l ← numbered fs around
  let b := E.base (sub (pts e.2) (pts e.1))
  match mkFaces pts b.1 b.2 e.1 e.2 l with
  | ok es => ok (around, some ((E.sort es).map (·.entry)))
  | exn _ => ok (around, none)
  | ub w => ub w

/-- All edges (Mix.h:56-67). -/
def edgeInputs (E : Env) (fs : List (Tri Nat)) (m : Mesh.Mesh) (pts : Nat → P3) : List (Nat × Nat) → Outcome (List (List Nat × Option (List Entry)))
  | [] => ok []
  | e :: es => do
    let x ← edgeInput E fs m pts e
    let xs ← edgeInputs E fs m pts es
    ok (x :: xs)

/-- The tag of a representative face (Classify_faces_globally.h:39-48); `none` if an exception is thrown. -/
def sideTag (E : Env) (left right : Soup P3 D) (fs : List (Tri Nat)) (pts : Nat → P3) (owner : Nat → Bool) (i : Nat) : Option Tag :=
  match fs[i]? with
  | none => none
  | some f =>
    match Side.sideOf (E.side (!owner i)) (if owner i then right else left) (Side.centroid (pts f.a) (pts f.b) (pts f.c)) with
    | ok .positive => some .exterior
    | ok .negative => some .interior
    | _ => none

/-- The data of the faces with other tags. -/
def retag (tags : Nat → Tag) : Nat → List (MixedData D) → List (MixedData D)
  | _, [] => []
  | i, d :: ds => { d with tag := tags i } :: retag tags (i + 1) ds

/-- `out` and `w` are a possible result of the classification (Mix.h:51-75) of the mixed faces `m0` of the operands `left` and `right`, where `border` are the intersecting edges. -/
def Result (E : Env) (left right : Soup P3 D) (m0 : Soup P3 (MixedData D)) (border : List (Nat × Nat)) (out : Soup P3 (MixedData D)) (w : Warnings) : Prop :=
  ∃ (m : Mesh.Mesh) (edges : List (List Nat × Option (List Entry))) (tags1 tags2 : Nat → Tag) (w1 w2 : Warnings),
    Mesh.Finalized m0.faces m ∧ edgeInputs E m0.faces m (pts m0.points) border = ok edges ∧
    Local.Result (env m0.faces m border (owner m0.data)) edges (tag m0.data) tags1 w1 ∧
    Global.Result (env m0.faces m border (owner m0.data)).nbr m0.faces.length (sideTag E left right m0.faces (pts m0.points) (owner m0.data)) (owner m0.data) tags1 tags2 w2 ∧
    out = ⟨m0.points, m0.faces, retag tags2 0 m0.data⟩ ∧ w = Warnings.or w1 w2

/-- The classification (Mix.h:51-75) may throw or go on forever: looking up the faces around an edge may throw (Mix.h:63-66), the call for an edge may throw or go on forever in some execution (Classify_faces_locally.h:28-127), and after the
edges have been dealt with, the search for representatives may go on forever, or the side of one of them may not be found (Classify_faces_globally.h:39-48). Floods neither throw nor go on forever. -/
def Fails (E : Env) (left right : Soup P3 D) (m0 : Soup P3 (MixedData D)) (border : List (Nat × Nat)) : Prop :=
  ∃ m, Mesh.Finalized m0.faces m ∧ ((∀ edges, edgeInputs E m0.faces m (pts m0.points) border ≠ ok edges) ∨
    ∃ edges, edgeInputs E m0.faces m (pts m0.points) border = ok edges ∧
      ((∃ c i, TagProg.Exec (Local.start (env m0.faces m border (owner m0.data)) edges (tag m0.data)) c ∧ (c.prog i = .fail ∨ c.prog i = .diverge)) ∨
      ∃ tags1 w1, Local.Result (env m0.faces m border (owner m0.data)) edges (tag m0.data) tags1 w1 ∧
        (representatives (env m0.faces m border (owner m0.data)).nbr tags1 m0.faces.length = none ∨
        ∃ reps, representatives (env m0.faces m border (owner m0.data)).nbr tags1 m0.faces.length = some reps ∧ ∃ r ∈ reps, sideTag E left right m0.faces (pts m0.points) (owner m0.data) r = none)))

/-- `bb` and `w` are a possible result of the constructor of the builder (Boolean_region_builder.h:30-76) for the regions `a` and `b`.  `cut left right m0 border` says that `m0` are the mixed faces and `border` the intersecting edges that
the corefinement of the soups may give (Mix.h:32-49, 54). -/
def Built (E : Env) (cut : Soup P3 D → Soup P3 D → Soup P3 (MixedData D) → List (Nat × Nat) → Prop) (a b : Region P3 D) (bb : Builder P3 D) (w : Warnings) : Prop :=
  if a.isEmptyOrFull || b.isEmptyOrFull then Builder.make (fun _ _ => exn "not called") a b = ok bb ∧ w = Warnings.none
  else ∃ m0 border, cut a.boundary b.boundary m0 border ∧ Result E a.boundary b.boundary m0 border bb.m w ∧ bb.firstKind = a.kind ∧ bb.secondKind = b.kind

/-- What is assumed of `Env`, for operands with the triangles `orig true` and `orig false`. -/
structure Env.Valid (E : Env) (orig : Bool → List (Tri P3)) : Prop where
  base : ∀ n, n ≠ ⟨0, 0, 0⟩ → IsBase n (E.base n).1 (E.base n).2
  /-- sorting does what it promises whenever the order is a strict weak order on the list -/
  sort : ∀ es, (∀ a ∈ es, radialLt a a = false) → (∀ a ∈ es, ∀ b ∈ es, ∀ c ∈ es, radialLt a b = true → radialLt b c = true → radialLt a c = true) →
    (∀ a ∈ es, ∀ b ∈ es, ∀ c ∈ es, radialLt a b = false → radialLt b a = false → radialLt b c = false → radialLt c b = false → radialLt a c = false ∧ radialLt c a = false) →
    IsSortOf radialLt es (E.sort es)
  side : ∀ b, (E.side b).Valid (orig b)

end Kigumi.Mix
