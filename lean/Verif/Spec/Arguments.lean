import Verif.Spec.TextFiles
import Verif.Spec.BinaryRead
import Verif.Spec.ObjRead
import Verif.Spec.OffRead
import Verif.Spec.PlyRead

/-!
# Which arguments stand for a region

A name stands for a region if it is one of the two special names or the name of a file that can be opened, whose name has one of four extensions, and whose content is in the grammar of
that extension (`Spec/BinaryRead`, `Spec/ObjRead`, `Spec/OffRead`, `Spec/PlyRead`).  No reader occurs.
-/
namespace Kigumi.Spec.Arguments
open Kigumi
open Kigumi.IO (Numbers Byte Pt RawRegion)
open Kigumi.Cli (Name Format)
open Kigumi.Spec.Cli (HasFormat)
open Kigumi.Program (regionOf chars fromDoubles)
variable {F : Type}

/-- The text is in the grammar of the format, with these points and polygons. -/
def Taken (M : Text.Doubles F) (fmt : Format) (t : List Char) (ps : List (Text.P3 F)) (fs : List (List Nat)) : Prop :=
  match fmt with
  | .kigumi => False
  | .obj => Text.Mesh.TakenAsObj M t ps fs
  | .off => Text.Mesh.TakenAsOff M t ps fs
  | .ply => Text.Ply.TakenAsPly M t ps fs

/-- The argument `n` stands for the region. -/
inductive StandsFor (N : Numbers) (M : Text.Doubles F) (bits : F → Nat) (readable : Name → Bool) (files : Name → Option (List Byte)) (n : Name) : Region Pt Unit → Prop
  | empty : n = ":empty:".toList → StandsFor N M bits readable files n ⟨.empty, ⟨[], [], []⟩⟩
  | full : n = ":full:".toList → StandsFor N M bits readable files n ⟨.full, ⟨[], [], []⟩⟩
  | binary {c xs rest : List Byte} {raw : RawRegion Unit} : HasFormat n .kigumi → readable n = true → files n = some c → c = xs ++ rest → BinSpec.IsRegion N BinSpec.IsNothing xs raw →
      StandsFor N M bits readable files n (regionOf raw)
  | text {fmt : Format} {c : List Byte} {ps : List (Text.P3 F)} {fs : List (List Nat)} : HasFormat n fmt → readable n = true → files n = some c → Taken M fmt (chars c) ps fs → (∃ f ∈ fs, 3 ≤ f.length) →
      StandsFor N M bits readable files n ⟨.boundaryDefined, ⟨ps.map (fromDoubles N bits), fs.flatMap Text.fan, List.replicate (fs.flatMap Text.fan).length ()⟩⟩

end Kigumi.Spec.Arguments
