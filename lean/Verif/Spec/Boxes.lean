import Mathlib.Algebra.Order.Field.Rat
import Mathlib.Tactic.Linarith

/-! # Axis-aligned boxes and queries as point sets (spec for the spatial index) -/
namespace Kigumi.Spec

/-- A point with exact coordinates. -/
structure P3 where
  x : ℚ
  y : ℚ
  z : ℚ
  deriving DecidableEq, Repr

/-- A closed box, or no box. -/
structure Box where
  lo : P3
  hi : P3
  deriving DecidableEq, Repr

/-- Membership in a closed box. -/
def Box.Mem (b : Box) (p : P3) : Prop :=
  b.lo.x ≤ p.x ∧ p.x ≤ b.hi.x ∧ b.lo.y ≤ p.y ∧ p.y ≤ b.hi.y ∧ b.lo.z ≤ p.z ∧ p.z ≤ b.hi.z

/-- Componentwise minimum and maximum (what `CGAL::Bbox_3::operator+=` computes). -/
def Box.join (b c : Box) : Box :=
  ⟨⟨min b.lo.x c.lo.x, min b.lo.y c.lo.y, min b.lo.z c.lo.z⟩, ⟨max b.hi.x c.hi.x, max b.hi.y c.hi.y, max b.hi.z c.hi.z⟩⟩

theorem Box.mem_join_left {b c : Box} {p : P3} (h : b.Mem p) : (b.join c).Mem p := by
  obtain ⟨h1, h2, h3, h4, h5, h6⟩ := h
  exact ⟨min_le_of_left_le h1, le_max_of_le_left h2, min_le_of_left_le h3, le_max_of_le_left h4, min_le_of_left_le h5, le_max_of_le_left h6⟩

theorem Box.mem_join_right {b c : Box} {p : P3} (h : c.Mem p) : (b.join c).Mem p := by
  obtain ⟨h1, h2, h3, h4, h5, h6⟩ := h
  exact ⟨min_le_of_right_le h1, le_max_of_le_right h2, min_le_of_right_le h3, le_max_of_le_right h4, min_le_of_right_le h5, le_max_of_le_right h6⟩

end Kigumi.Spec
