import Verif.Model.ProgramText
import Verif.Spec.Files
import Verif.Spec.MeshFile

/-!
# What arguments of the program stand for

A text file is a list of points and polygons (`Spec/MeshFile`, `Spec/PlyFile`); it stands for the region with these points and the triangles that the polygons are cut into.
-/
namespace Kigumi.Spec.Files
open Kigumi Outcome
open Kigumi.IO (Numbers Byte)
open Kigumi.Geo (P3)
open Kigumi.Cli (Name Format)
open Kigumi.Spec.Cli (HasFormat)
open Kigumi.Spec.Side (Denotes)
open Kigumi.Program (places regionOf chars)
variable {F : Type}

/-- The text is a file of the format with these points and polygons. -/
def IsMesh (M : Text.Doubles F) (fmt : Format) (t : List Char) (ps : List (Text.P3 F)) (fs : List (List Nat)) : Prop :=
  match fmt with
  | .kigumi => False
  | .obj => Text.Mesh.IsObj M t ps fs ∧ ps.length < 2 ^ 64
  | .off => Text.Mesh.IsOff M t ps fs
  | .ply => Text.Ply.IsPly M t ps fs

/-- The place of a point. -/
def placeOf (N : Numbers) (bits : F → Nat) (p : Text.P3 F) : P3 := ⟨N.val (bits p.1), N.val (bits p.2.1), N.val (bits p.2.2)⟩

/-- The region with these points and polygons. -/
def meshRegion (N : Numbers) (bits : F → Nat) (ps : List (Text.P3 F)) (fs : List (List Nat)) : Region P3 Unit :=
  ⟨.boundaryDefined, ⟨ps.map (placeOf N bits), fs.flatMap Text.fan, List.replicate (fs.flatMap Text.fan).length ()⟩⟩

/-- The argument `n` of the program stands for the region `r`. -/
inductive StandsFor (N : Numbers) (M : Text.Doubles F) (bits : F → Nat) (files : Name → Option (List Byte)) (n : Name) : Region P3 Unit → Prop
  | empty : n = ":empty:".toList → StandsFor N M bits files n Region.emptyRegion
  | full : n = ":full:".toList → StandsFor N M bits files n Region.fullRegion
  | kigumi {c : List Byte} {r : Region P3 Unit} : HasFormat n .kigumi → files n = some c → (∀ raw, Accepted N c raw → places (regionOf raw) = r) → StandsFor N M bits files n r
  | text {fmt : Format} {c : List Byte} {ps : List (Text.P3 F)} {fs : List (List Nat)} : HasFormat n fmt → files n = some c → IsMesh M fmt (chars c) ps fs → StandsFor N M bits files n (meshRegion N bits ps fs)

/-- The argument `n` of the program stands for the set `A`, apart from points of `S`; all who succeed in reading a `.kigumi` file get this set. -/
inductive Tells (N : Numbers) (M : Text.Doubles F) (bits : F → Nat) (files : Name → Option (List Byte)) (n : Name) (A S : P3 → Prop) : Prop
  | region {r : Region P3 Unit} : StandsFor N M bits files n r → Denotes r A S → Tells N M bits files n A S
  | stored {c : List Byte} : HasFormat n .kigumi → files n = some c → Says N c A S → Tells N M bits files n A S

end Kigumi.Spec.Files
