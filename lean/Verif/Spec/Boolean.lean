import Verif.Model.Soup
import Mathlib.Order.SymmDiff
import Mathlib.Data.Set.Basic
/-!
# What a Boolean operation should do (independent of the mask tables)
-/
namespace Kigumi.Spec

/-- The set-theoretic meaning of each operator, transcribed from the documentation comments of
include/kigumi/Boolean_operator.h:35-50. -/
def onSets {X : Type} (op : Op) (A B : Set X) : Set X :=
  match op with
  | .V => Set.univ
  | .A => A ∪ B
  | .B => (B \ A)ᶜ
  | .C => (A \ B)ᶜ
  | .D => (A ∩ B)ᶜ
  | .E => (symmDiff A B)ᶜ
  | .F => Aᶜ
  | .G => Bᶜ
  | .H => B
  | .I => A
  | .J => symmDiff A B
  | .K => A ∩ B
  | .L => A \ B
  | .M => B \ A
  | .X => (A ∪ B)ᶜ
  | .O => ∅

/-- Truth table of an operator: membership in the result of a point that is (not) in A and (not) in B.
The 4-bit table lists the values at (a,b) = (0,0), (0,1), (1,0), (1,1). -/
def table : Op → Bool × Bool × Bool × Bool
  | .V => (true, true, true, true)
  | .A => (false, true, true, true)
  | .B => (true, false, true, true)
  | .C => (true, true, false, true)
  | .D => (true, true, true, false)
  | .E => (true, false, false, true)
  | .F => (true, true, false, false)
  | .G => (true, false, true, false)
  | .H => (false, true, false, true)
  | .I => (false, false, true, true)
  | .J => (false, true, true, false)
  | .K => (false, false, false, true)
  | .L => (false, false, true, false)
  | .M => (false, true, false, false)
  | .X => (true, false, false, false)
  | .O => (false, false, false, false)

/-- Value of the operator at a point with membership (a, b). -/
def truth (op : Op) (a b : Bool) : Bool :=
  match a, b with
  | false, false => (table op).1
  | false, true => (table op).2.1
  | true, false => (table op).2.2.1
  | true, true => (table op).2.2.2

/-- Membership (in A, in B) just behind (inner side) and just in front of (outer side) a face of one operand, given
the position of the face relative to the other operand.  `none` if the position is not known. -/
def sides (fromLeft : Bool) : Tag → Option ((Bool × Bool) × (Bool × Bool))
  | .exterior => some (if fromLeft then ((true, false), (false, false)) else ((false, true), (false, false)))
  | .interior => some (if fromLeft then ((true, true), (false, true)) else ((true, true), (true, false)))
  | .coplanar => some ((true, true), (false, false))
  | .opposite => some (if fromLeft then ((true, false), (false, true)) else ((false, true), (true, false)))
  | .unknown => none

/-- Should the face be part of the boundary of the result, and with which orientation?
`none`: no; `some false`: as it is; `some true`: inverted.  Of two coincident faces only the copy of the preferred
operand counts. -/
def select (op : Op) (preferFirst : Bool) (fromLeft : Bool) (tag : Tag) : Option Bool :=
  if (tag = .coplanar ∨ tag = .opposite) ∧ fromLeft ≠ preferFirst then none
  else
    match sides fromLeft tag with
    | none => none
    | some ((ia, ib), (oa, ob)) =>
      match truth op ia ib, truth op oa ob with
      | true, false => some false
      | false, true => some true
      | _, _ => none

/-- The faces (as triples of source vertex indices, oriented) with their data that should be emitted, in order. -/
def selected {P D : Type} (m : Soup P (MixedData D)) (op : Op) (preferFirst : Bool) : List (Tri Nat × D) :=
  (m.faces.zip m.data).filterMap fun (f, d) =>
    (select op preferFirst d.fromLeft d.tag).map fun inv => (if inv then f.flip else f, d.data)

end Kigumi.Spec
