import Verif.Model.Program
import Verif.Model.TextIO

/-!
# The command line program with text files

The parameters of `Cli` for OBJ, OFF and PLY files are the readers and writers of `TextIO`. Files are opened without `std::ios::binary` (include/kigumi/io/obj.h:96, 138 and the others); that some systems translate line ends is not modelled. `F` stands for the finite doubles:
nothing is said about files with infinities or NaN, or about coordinates that are too large for a double.
-/
namespace Kigumi.Program
open Kigumi Outcome
open Kigumi.IO (Numbers Pt Byte)
open Kigumi.Cli (Format)
variable {F : Type}

/-- The characters of a stream of bytes. -/
def chars (bs : List Byte) : List Char := bs.map fun b => Char.ofNat b.val

/-- `Point{x.value, y.value, z.value}` (include/kigumi/io/obj.h:62, off.h:129, ply.h:233): lazy exact coordinates made from doubles. -/
def fromDoubles (N : Numbers) (bits : F → Nat) (p : Text.P3 F) : Pt := ⟨⟨N.val (bits p.1), some (bits p.1)⟩, ⟨N.val (bits p.2.1), some (bits p.2.1)⟩, ⟨N.val (bits p.2.2), some (bits p.2.2)⟩⟩

/-- The soup that a reader makes. -/
def fromText (N : Numbers) (bits : F → Nat) (s : Soup (Text.P3 F) Unit) : Soup Pt Unit := ⟨s.points.map (fromDoubles N bits), s.faces, s.data⟩

/-- The readers by format (include/kigumi/Triangle_soup_io.h:14-22), into a new soup (cli/utility.h:27-28). -/
def readText (M : Text.Doubles F) (fmt : Format) (t : List Char) : Bool × Soup (Text.P3 F) Unit × Nat :=
  match fmt with
  | .kigumi => (false, Soup.empty, 0)
  | .obj => Text.readObj M () (Text.IS.of t) Soup.empty
  | .off => Text.readOff M () (Text.IS.of t) Soup.empty
  | .ply => Text.readPly M () (Text.IS.of t) Soup.empty

/-- The writers by format (Triangle_soup_io.h:29-37). The program does not change `negative_indices` (include/kigumi/io/obj.h:25). -/
def writeText (M : Text.Doubles F) (d : Pt → Text.P3 F) (fmt : Format) (s : Soup Pt Unit) : List Char :=
  match fmt with
  | .kigumi => []
  | .obj => Text.writeObj M d false s
  | .off => Text.writeOff M d s
  | .ply => Text.writePly M d s

/-- The parameters of the program for text files are the library. `bits` is the representation of a double, `dbl` is `CGAL::to_double` of the coordinates after `exact()` (obj.h:114-117, off.h:201-204, ply.h:312-315), unless it is infinite.
* `read`: what the models of the readers accept, the readers accept, with the same result.
* `write`: what the models of the writers write, the writers send to the stream in pieces.
* `rounds`, `finite`: a coordinate that a double can hold is not changed by rounding. -/
structure TextLibrary (N : Numbers) (M : Text.Doubles F) (bits : F → Nat) (dbl : Pt → Option (Text.P3 F)) {B : Type} (E : Cli.Env Byte Pt Unit B) : Prop where
  read : ∀ fmt c s k, fmt ≠ .kigumi → readText M fmt (chars c) = (true, s, k) → E.readSoup fmt c = ok (some (fromText N bits s))
  write : ∀ fmt s (d : Pt → Text.P3 F), fmt ≠ .kigumi → (∀ p ∈ s.points, dbl p = some (d p)) → chars (E.soupPieces fmt s).1.flatten = writeText M d fmt s ∧ (E.soupPieces fmt s).2 = ok ()
  rounds : ∀ p d, dbl p = some d → (∀ y, p.x.value = N.val (bits y) → N.val (bits d.1) = p.x.value) ∧ (∀ y, p.y.value = N.val (bits y) → N.val (bits d.2.1) = p.y.value) ∧ ∀ y, p.z.value = N.val (bits y) → N.val (bits d.2.2) = p.z.value
  finite : ∀ p, (∃ x, p.x.value = N.val (bits x)) → (∃ y, p.y.value = N.val (bits y)) → (∃ z, p.z.value = N.val (bits z)) → ∃ d, dbl p = some d

end Kigumi.Program
