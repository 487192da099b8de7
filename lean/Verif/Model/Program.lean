import Verif.Model.Cli
import Verif.Model.BinaryIO
import Verif.Model.Mix
import Verif.Proofs.Operands
import Verif.Spec.Arrangement

/-!
# The command line program with the library

`Cli` leaves the library to its parameters. Here the parameters for `.kigumi` files and Boolean operations are those of the models of the library. Meshes of the program have no face data (cli/boolean_command.cc:19-20, include/kigumi/Region.h:40).
The readers and writers of the other formats remain parameters.
-/
namespace Kigumi.Program
open Kigumi Outcome
open Kigumi.IO (Host Numbers Pt RawRegion Byte nullCodec)
open Kigumi.Geo (P3)
open Kigumi.Spec (HasCorners)

/-- The place of a point with lazy exact coordinates. -/
def place (p : Pt) : P3 := ⟨p.x.value, p.y.value, p.z.value⟩

/-- The region with the places of its vertices. -/
def places (r : Region Pt Unit) : Region P3 Unit := ⟨r.kind, ⟨r.boundary.points.map place, r.boundary.faces, r.boundary.data⟩⟩

/-- The numbers of the enumerators (include/kigumi/Region.h:15-19). -/
def code : Kind → Nat
  | .empty => 0
  | .full => 1
  | .boundaryDefined => 2

/-- `static_cast<Region_kind>` (Region.h:28-35). Bytes above 2 give a kind that is neither empty nor full (Region.h:83-87) and behave like 2, except that they are written again as they are. -/
def kindOf : Nat → Kind
  | 0 => .empty
  | 1 => .full
  | _ => .boundaryDefined

/-- A region as `read_kigumi_region` leaves it. -/
def regionOf (r : RawRegion Unit) : Region Pt Unit := ⟨kindOf r.kind, r.boundary⟩

/-- A region as `write_kigumi_region` takes it. -/
def rawOf (r : Region Pt Unit) : RawRegion Unit := ⟨code r.kind, r.boundary⟩

/-- The approximations of the coordinates that consist of one double are exact. -/
def Exact (N : Numbers) (p : Pt) : Prop := ∀ c, c = p.x ∨ c = p.y ∨ c = p.z → ∀ b, c.dbl = some b → b < 2 ^ 64 ∧ N.val b = c.value

/-- The constructor of `Boolean_region_builder` may return `bb` with the warnings `v` (Boolean_region_builder.h:30-76), for some threads, sorting algorithms, triangulations of CGAL, etc. that keep to their contracts. -/
def Builds (a b : Region P3 Unit) (bb : Builder P3 Unit) (v : Global.Warnings) : Prop :=
  ∃ (E : Corefine.Env) (E' : Mix.Env), (∀ orig, HasCorners a.boundary.points a.boundary.faces (orig true) → HasCorners b.boundary.points b.boundary.faces (orig false) → E.Valid orig ∧ E'.Valid orig) ∧
    Mix.Built E' (Corefine.Gives E) a b bb v

/-- The constructor may fail: `Corefine` throws (Corefine.h:42-205), or the classification fails (Mix.h:51-75), or copying the faces of the only operand that is not empty or full. -/
def Breaks (a b : Region P3 Unit) : Prop :=
  ∃ (E : Corefine.Env) (E' : Mix.Env), (∀ orig, HasCorners a.boundary.points a.boundary.faces (orig true) → HasCorners b.boundary.points b.boundary.faces (orig false) → E.Valid orig ∧ E'.Valid orig) ∧
    if a.isEmptyOrFull || b.isEmptyOrFull then ∀ bb, Builder.make (fun _ _ => exn "not called") a b ≠ ok bb
    else (∃ o, Corefine.construct E a.boundary b.boundary o ∧ ∀ s, o ≠ ok s) ∨ ∃ m0 border, Corefine.Gives E a.boundary b.boundary m0 border ∧ Mix.Fails E' a.boundary b.boundary m0 border

/-- A writer that sends these pieces to the stream has the outcome `o`: all bytes, or some of them and an exception. -/
def Prints (ps : List (List Byte) × Outcome Unit) (o : Outcome (List Byte)) : Prop :=
  (∀ bs, o = ok bs → ps.1.flatten = bs) ∧ ps.2 = o.bind fun _ => ok ()

/-- The parameters of the program are the library.
* `read`: `read_kigumi_region` (include/kigumi/Region_io.h:12-19); `buf` is what the buffer of the thread happens to hold (include/kigumi/io.h).
* `write`: `write_kigumi_region` (Region_io.h:31-38).
* `build`: `Boolean_region_builder builder{first, second}` (cli/boolean_command.cc:107).
* `eval`, `exact`: `builder(op)` (boolean_command.cc:128), with `prefer_first` at its default (Boolean_region_builder.h:78); how far lazy coordinates have been evaluated is left open. -/
structure Library (h : Host) (N : Numbers) (E : Cli.Env Byte Pt Unit (Builder P3 Unit)) : Prop where
  read : ∀ bs, ∃ buf, E.readKigumi bs = (IO.readRegion h N nullCodec .fresh ⟨⟨bs, false, false⟩, buf⟩).bind fun x => ok (if x.1 then some (regionOf x.2.1) else none)
  write : ∀ r, Prints (E.kigumiPieces r) (IO.writeRegion h N nullCodec (rawOf r))
  build : ∀ a b bb v, E.build a b = ok (bb, v) → Builds (places a) (places b) bb v
  eval : ∀ bb op, ((E.eval bb op).bind fun r => ok (places r)) = bb.run op true
  exact : ∀ bb op r, E.eval bb op = ok r → ∀ p ∈ r.boundary.points, Exact N p

end Kigumi.Program
