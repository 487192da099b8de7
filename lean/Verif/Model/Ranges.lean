import Verif.Model.Soup
import Mathlib.Order.WithBot
import Mathlib.Algebra.Order.Field.Rat

/-!
# Indices, the ranges of all vertices and of all faces, bounding boxes (include/kigumi/Mesh_indices.h, Mesh_iterators.h, Triangle_mesh.h, Triangle_soup.h)

`std::size_t` has 64 bits: its values are the natural numbers below `2 ^ 64`.  `Vertex_iterator` and `Face_iterator` are the same but for the types of their indices.
-/
namespace Kigumi.Ranges
open Kigumi Outcome

/-! ## `Index` -/

/-- The default value (Mesh_indices.h:56). -/
def invalid : Nat := 2 ^ 64 - 1
/-- `is_valid` (Mesh_indices.h:20). -/
def isValid (i : Nat) : Bool := i != 2 ^ 64 - 1
/-- `operator++` (Mesh_indices.h:29-32). -/
def inc (i : Nat) : Nat := (i + 1) % 2 ^ 64
/-- `operator--` (Mesh_indices.h:40-43). -/
def dec (i : Nat) : Nat := (i + (2 ^ 64 - 1)) % 2 ^ 64
/-- `operator+=` (Mesh_indices.h:51-54). -/
def add (i n : Nat) : Nat := (i + n) % 2 ^ 64

/-! ## Iterators -/

/-- Conversion from `std::ptrdiff_t` to `std::size_t`. -/
def toSize (n : Int) : Nat := (n % 2 ^ 64).toNat
/-- `static_cast<std::ptrdiff_t>` of a `std::size_t`. -/
def toDiff (i : Nat) : Int := if i < 2 ^ 63 then i else (i : Int) - 2 ^ 64
/-- A result of arithmetic with `std::ptrdiff_t`. -/
def diff (n : Int) : Outcome Int := if -2 ^ 63 ≤ n ∧ n < 2 ^ 63 then ok n else ub "signed overflow"

/-- `advance` (Mesh_iterators.h:19, 105). -/
def advance (i : Nat) (n : Int) : Nat := add i (toSize n)
/-- `distance_to` (Mesh_iterators.h:25-27, 111-113). -/
def distanceTo (i other : Nat) : Outcome Int := diff (toDiff other - toDiff i)

/-- What `boost::iterator_facade` makes of these: `++it`, `--it`, `it += n`, `it -= n`. -/
inductive Move
  | next
  | prev
  | plus (n : Int)
  | minus (n : Int)
  deriving DecidableEq, Repr

/-- `increment`, `decrement` (Mesh_iterators.h:21, 31, 107, 117); `it -= n` is `advance(-n)`. -/
def step (i : Nat) : Move → Outcome Nat
  | .next => ok (inc i)
  | .prev => ok (dec i)
  | .plus n => ok (advance i n)
  | .minus n => (diff (-n)).bind fun n => ok (advance i n)

def steps (i : Nat) : List Move → Outcome Nat
  | [] => ok i
  | m :: ms => (step i m).bind fun i => steps i ms

/-- `a - b`, which is `b.distance_to(a)`. -/
def minus (a b : Nat) : Outcome Int := distanceTo b a
/-- `a < b` of iterators: the distance from `b` to `a` is negative. -/
def less (a b : Nat) : Outcome Bool := (minus a b).bind fun d => ok (decide (d < 0))
/-- `it[n]`, which is `*(it + n)`; `dereference` (Mesh_iterators.h:23, 109). -/
def subscript (i : Nat) (n : Int) : Nat := advance i n

/-- `for (auto i : vertices())`, from `i` to `stop` (Triangle_soup.h:94-104, Triangle_mesh.h:140-150, `equal` at Mesh_iterators.h:29, 115); `none` if the loop has not ended after this many rounds. -/
def visit (stop : Nat) : Nat → Nat → Option (List Nat)
  | 0, _ => none
  | k + 1, i => if i = stop then some [] else (visit stop k (inc i)).map (i :: ·)

/-! ## Bounding boxes -/

/-- A bound: a rational number, or an infinity. -/
abbrev Bound := WithBot (WithTop ℚ)

/-- `CGAL::Bbox_3`, without NaN. -/
structure Box where
  lo : Fin 3 → Bound
  hi : Fin 3 → Bound

/-- `Bbox{}` -/
def Box.none : Box := ⟨fun _ => ⊤, fun _ => ⊥⟩
/-- `operator+=` -/
def Box.join (b c : Box) : Box := ⟨fun k => min (b.lo k) (c.lo k), fun k => max (b.hi k) (c.hi k)⟩

/-- `bbox()` (Triangle_soup.h:119-127, Triangle_mesh.h:190-198); `approx` stands for `p.approx().bbox()`. -/
def bbox {P D : Type} (approx : P → Box) (s : Soup P D) : Box := s.points.foldl (fun b p => b.join (approx p)) Box.none

end Kigumi.Ranges
