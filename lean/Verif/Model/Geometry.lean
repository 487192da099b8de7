import Verif.Spec.Boxes
import Verif.Model.Prelude

/-!
# Exact geometry

CGAL kernel objects with exact rational coordinates.  CGAL's predicates and constructions are modelled by their definitions; number types and filtering are not modelled.
-/
namespace Kigumi.Geo
open Kigumi

/-- `K::Point_3`, `K::Vector_3` -/
abbrev P3 := Spec.P3

/-- `K::Vector_2`, `K::Point_2` -/
structure P2 where
  x : ℚ
  y : ℚ
  deriving DecidableEq, Repr

/-- `q - p` -/
def sub (q p : P3) : P3 := ⟨q.x - p.x, q.y - p.y, q.z - p.z⟩
/-- `a * b` for vectors: the scalar product. -/
def dot (a b : P3) : ℚ := a.x * b.x + a.y * b.y + a.z * b.z
/-- `CGAL::cross_product(a, b)` -/
def cross (a b : P3) : P3 := ⟨a.y * b.z - a.z * b.y, a.z * b.x - a.x * b.z, a.x * b.y - a.y * b.x⟩
/-- `CGAL::orientation(a, b)` of two vectors of the plane, before taking the sign. -/
def det2 (a b : P2) : ℚ := a.x * b.y - a.y * b.x

/-- `CGAL::sign` -/
def sgn (x : ℚ) : Int := if x < 0 then -1 else if x = 0 then 0 else 1

theorem sgn_pos {x : ℚ} : sgn x > 0 ↔ 0 < x := by
  unfold sgn
  split
  · constructor <;> intro h
    · omega
    · linarith
  · split
    · rename_i h; subst h; simp
    · rename_i h1 h2
      constructor
      · intro _; exact lt_of_le_of_ne (not_lt.1 h1) (Ne.symm h2)
      · intro _; decide

theorem sgn_neg {x : ℚ} : sgn x < 0 ↔ x < 0 := by
  unfold sgn
  split
  · rename_i h; simp [h]
  · rename_i h; simp only [h, iff_false]; split <;> decide

theorem sgn_zero {x : ℚ} : sgn x = 0 ↔ x = 0 := by
  unfold sgn
  split
  · rename_i h; constructor
    · intro h; omega
    · intro h'; linarith
  · split
    · rename_i h; simp [h]
    · rename_i h; simp [h]

end Kigumi.Geo
