import Verif.Model.Cli
import Verif.Spec.Boolean
/-!
# What the arguments of the command line program mean

Stated with names, extensions and functions of two truth values; the commands of the model do not occur.
-/
namespace Kigumi.Spec.Cli
open Kigumi.Cli (Name Format Options)

/-- The extension of each format. -/
def ext : Format → Name
  | .kigumi => ".kigumi".toList
  | .obj => ".obj".toList
  | .off => ".off".toList
  | .ply => ".ply".toList

/-- The name consists of something and the extension. -/
def HasFormat (n : Name) (f : Format) : Prop := ∃ stem, n = stem ++ ext f

/-- What a region argument stands for. -/
inductive Meaning where
  | empty | full | file (f : Format) | unsupported

/-- The interpretation of a region argument. -/
inductive Means (n : Name) : Meaning → Prop
  | empty : n = ":empty:".toList → Means n .empty
  | full : n = ":full:".toList → Means n .full
  | file (f : Format) : HasFormat n f → Means n (.file f)
  | unsupported : n ≠ ":empty:".toList → n ≠ ":full:".toList → (∀ f, ¬ HasFormat n f) → Means n .unsupported

/-- The outputs asked for, as functions of two truth values. -/
inductive Wanted (o : Options) : (Bool → Bool → Bool) → Name → Prop
  | int {n : Name} : o.int = some n → Wanted o (fun a b => a && b) n
  | uni {n : Name} : o.uni = some n → Wanted o (fun a b => a || b) n
  | dif {n : Name} : o.dif = some n → Wanted o (fun a b => a && !b) n
  | sym {n : Name} : o.sym = some n → Wanted o (fun a b => a != b) n

/-- Which function a file holds in the end: when a name is given several times the later of intersection, union, difference, symmetric difference counts. -/
def last (o : Options) (n : Name) : Option (Bool → Bool → Bool) :=
  if o.sym = some n then some fun a b => a != b
  else if o.dif = some n then some fun a b => a && !b
  else if o.uni = some n then some fun a b => a || b
  else if o.int = some n then some fun a b => a && b
  else none

/-- What is printed to the standard output while two operands are combined. -/
def progressText {P D : Type} (a b : Region P D) : List Char :=
  if a.kind = .boundaryDefined ∧ b.kind = .boundaryDefined then
    "Finding face pairs...\nFinding symbolic intersections...\nConstructing intersection points...\nTriangulating...\nConstructing mixed mesh...\nLocal classification...\nGlobal classification...\n".toList
  else []

end Kigumi.Spec.Cli
