import Verif.Model.BooleanOperator
import Verif.Model.PointList

/-!
# Coincident faces (include/kigumi/Find_coplanar_faces.h)

Soups are given by their faces; the point ids are those of Corefine.h:47-52.  The parallel loop runs the body once for every face of `b` (C13); bodies only write to the tag vectors
(the map is constant by then), so an execution is some order of all the writes of all the bodies.
-/
namespace Kigumi.Coplanar
open Kigumi Outcome

/-- `std::rotate` to `std::min_element` (Find_coplanar_faces.h:76-77): the first of the smallest elements comes first. -/
def canon (t : Tri Nat) : Tri Nat :=
  let smallest := if t.b < t.a then (if t.c < t.b then 2 else 1) else (if t.c < t.a then 2 else 0)
  if smallest = 0 then t else if smallest = 1 then ⟨t.b, t.c, t.a⟩ else ⟨t.c, t.a, t.b⟩

/-- `triangle` (Find_coplanar_faces.h:68-79). -/
def triangle (face : Tri Nat) (points : List Nat) : Outcome (Tri Nat) := do
  let a ← at! points face.a
  let b ← at! points face.b
  let c ← at! points face.c
  ok (canon ⟨a, b, c⟩)

/-- `opposite` (Find_coplanar_faces.h:81-83). -/
def opposite (t : Tri Nat) : Tri Nat := ⟨t.a, t.c, t.b⟩

/-- `triangle_to_fi`: a finite map, as the list of its entries. -/
abbrev TriMap := List (Tri Nat × Nat)

/-- `emplace`: does nothing if the key is there already. -/
def emplace (m : TriMap) (t : Tri Nat) (fi : Nat) : TriMap :=
  match PointList.find m t with
  | some _ => m
  | none => m ++ [(t, fi)]

/-- The loop over the faces of `a` (Find_coplanar_faces.h:42-45), starting with face number `fi`. -/
def buildMap (points : List Nat) : Nat → List (Tri Nat) → TriMap → Outcome TriMap
  | _, [], m => ok m
  | fi, f :: fs, m => do
    let t ← triangle f points
    buildMap points (fi + 1) fs (emplace m t fi)

/-- A write to an element of one of the tag vectors; `true` for `a_face_tags`. -/
structure Write where
  toA : Bool
  face : Nat
  tag : Tag
  deriving DecidableEq, Repr

/-- The body of the parallel loop for face number `fi` of `b` (Find_coplanar_faces.h:48-61). -/
def body (m : TriMap) (points : List Nat) (fi : Nat) (f : Tri Nat) : Outcome (List Write) := do
  let t ← triangle f points
  match PointList.find m t with
  | some i => ok [⟨true, i, .coplanar⟩, ⟨false, fi, .coplanar⟩]
  | none =>
    match PointList.find m (opposite t) with
    | some i => ok [⟨true, i, .opposite⟩, ⟨false, fi, .opposite⟩]
    | none => ok []

/-- The writes of all bodies. -/
def bodies (m : TriMap) (points : List Nat) : Nat → List (Tri Nat) → Outcome (List Write)
  | _, [] => ok []
  | fi, f :: fs => do
    let ws ← body m points fi f
    let rest ← bodies m points (fi + 1) fs
    ok (ws ++ rest)

/-- The value of an element of a tag vector after some writes: `UNKNOWN` (value-initialized, Find_coplanar_faces.h:28-29) if it was not written. -/
def finalTag (toA : Bool) (face : Nat) : List Write → Tag → Tag
  | [], t => t
  | w :: ws, t => finalTag toA face ws (if w.toA = toA ∧ w.face = face then w.tag else t)

/-- `operator()` (Find_coplanar_faces.h:24-65): the tags of the left and right faces are a possible result. -/
def Returns (left right : List (Tri Nat)) (leftPoints rightPoints : List Nat) (leftTags rightTags : List Tag) : Prop :=
  let leftIsA := decide (left.length < right.length)
  let a := if leftIsA then left else right
  let b := if leftIsA then right else left
  let aPoints := if leftIsA then leftPoints else rightPoints
  let bPoints := if leftIsA then rightPoints else leftPoints
  ∃ m ws order, buildMap aPoints 0 a [] = ok m ∧ bodies m bPoints 0 b = ok ws ∧ order.Perm ws ∧
    leftTags = (List.range left.length).map (fun i => finalTag leftIsA i order .unknown) ∧
    rightTags = (List.range right.length).map (fun i => finalTag (!leftIsA) i order .unknown)

end Kigumi.Coplanar
