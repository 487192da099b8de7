import Verif.Spec.Arrangement
/-!
# Histories of region-producing calls, complements and exchanged operands
-/
namespace Kigumi.Spec
variable {P D : Type}

/-- Regions a program can obtain from constructors, `empty()`, `full()`, copies and Boolean operations, for any
behaviour `mix` of the arrangement computation. (Moving out of a region and `boundary_unsafe()` are excluded; see
`region_invariant_lost_by_move`.) -/
inductive Reachable (mix : Soup P D → Soup P D → Outcome (Soup P (MixedData D))) : Region P D → Prop where
  | default : Reachable mix Region.emptyRegion
  | emptyCall : Reachable mix Region.emptyRegion
  | fullCall : Reachable mix Region.fullRegion
  | ofSoup {s r} : Region.ofSoup s = .ok r → Reachable mix r
  | boolean {a b bb r} (op : Op) (preferFirst : Bool) : Reachable mix a → Reachable mix b →
      Builder.make mix a b = .ok bb → bb.run op preferFirst = .ok r → Reachable mix r

/-- The operator with the complementary truth table. -/
def Op.compl : Op → Op
  | .V => .O | .A => .X | .B => .M | .C => .L | .D => .K | .E => .J | .F => .I | .G => .H
  | .H => .G | .I => .F | .J => .E | .K => .D | .L => .C | .M => .B | .X => .A | .O => .V

/-- The operator with exchanged arguments. -/
def Op.swap : Op → Op
  | .V => .V | .A => .A | .B => .C | .C => .B | .D => .D | .E => .E | .F => .G | .G => .F
  | .H => .I | .I => .H | .J => .J | .K => .K | .L => .M | .M => .L | .X => .X | .O => .O

/-- The soup with every face inverted. -/
def flipSoup (s : Soup P D) : Soup P D := { s with faces := s.faces.map Tri.flip }

/-- The complementary region. -/
def complement (r : Region P D) : Region P D :=
  match r.kind with
  | .empty => Region.fullRegion
  | .full => Region.emptyRegion
  | .boundaryDefined => ⟨.boundaryDefined, flipSoup r.boundary⟩

/-- The mixed soup with the roles of the operands exchanged. -/
def swapOperands (m : Soup P (MixedData D)) : Soup P (MixedData D) :=
  { m with data := m.data.map fun d => { d with fromLeft := !d.fromLeft } }

/-- Map over an outcome. -/
def mapOutcome {α β : Type} (f : α → β) : Outcome α → Outcome β
  | .ok a => .ok (f a)
  | .exn m => .exn m
  | .ub w => .ub w

/-- Expected result for one boundary-defined operand `s`, when the result is `lo` outside it and `hi` inside it. -/
def SingleResult (s : Soup P D) (lo hi : Bool) (r : Region P D) : Prop :=
  if lo = hi then r = fullOrEmpty hi
  else r.kind = .boundaryDefined ∧ r.boundary.data = s.data ∧
    ∀ ts, HasCorners s.points s.faces ts →
      HasCorners r.boundary.points r.boundary.faces (if hi then ts else ts.map Tri.flip)

end Kigumi.Spec
