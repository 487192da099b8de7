import Verif.Model.BinaryIO
import Mathlib.Data.Nat.Log

/-!
# Which regions a binary file can hold, and how long it is

Said with numbers only: nothing is written.  From the model, only the types of the values are used.
-/
namespace Kigumi.Spec.Writable
open Kigumi IO

/-- How many bytes a natural number takes: its digits to the base 256; zero has one digit with Boost and none with GMP. -/
def digits (b : Backend) (v : Nat) : Nat :=
  if v = 0 then (match b with
    | .boost => 1
    | .gmp => 0)
  else Nat.log 256 v + 1

/-- A rational number: sign, numerator with its length, denominator with its length. -/
def numberSize (b : Backend) (q : ℚ) : Nat := 1 + (4 + digits b q.num.natAbs) + (4 + digits b q.den)

/-- All coordinates are doubles. -/
def Doubles (p : Pt) : Prop := p.x.dbl ≠ none ∧ p.y.dbl ≠ none ∧ p.z.dbl ≠ none

instance (p : Pt) : Decidable (Doubles p) := by unfold Doubles; infer_instance

def vertexSize (b : Backend) (p : Pt) : Nat :=
  if Doubles p then 25 else 1 + numberSize b p.x.value + numberSize b p.y.value + numberSize b p.z.value

/-- The length of the file: the kind, two counts, the vertices, three counts for every face. -/
def fileSize {D : Type} (b : Backend) (s : Soup Pt D) : Nat := 9 + (s.points.map (vertexSize b)).sum + 12 * s.faces.length

/-- The lengths of numerator and denominator are below `2 ^ 31`. -/
def Short (b : Backend) (q : ℚ) : Prop := digits b q.num.natAbs < 2 ^ 31 ∧ digits b q.den < 2 ^ 31

/-- All counts, indices and lengths are below `2 ^ 31`, and no face is without data. -/
structure Writable {D : Type} (b : Backend) (s : Soup Pt D) : Prop where
  vertices : s.points.length < 2 ^ 31
  faces : s.faces.length < 2 ^ 31
  coordinates : ∀ p ∈ s.points, Doubles p ∨ (Short b p.x.value ∧ Short b p.y.value ∧ Short b p.z.value)
  indices : ∀ f ∈ s.faces, f.a < 2 ^ 31 ∧ f.b < 2 ^ 31 ∧ f.c < 2 ^ 31
  data : s.faces.length ≤ s.data.length

end Kigumi.Spec.Writable
