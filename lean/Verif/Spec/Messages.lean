import Verif.Spec.Arguments

/-!
# Messages about files that are refused
-/
namespace Kigumi.Spec.Messages
open Kigumi.Cli (Format)

/-- A line that is printed: to the standard output (`true`) or to the standard error output; the pair is what both get. -/
def printed (out : Bool) (m : List Char) : List Char × List Char := if out then (m ++ ['\n'], []) else ([], m ++ ['\n'])

/-- The messages about a line, and whether they go to the standard output. -/
inductive AboutLine (l : List Char) : Format → Bool → List Char → Prop
  | objVertex : AboutLine l .obj false ("invalid vertex line: ".toList ++ l)
  | objFace : AboutLine l .obj false ("invalid face line: ".toList ++ l)
  | offHeader : AboutLine l .off false ("invalid header line: ".toList ++ l)
  | offBinary : AboutLine l .off false "binary OFF is not supported".toList
  | offVertex : AboutLine l .off false ("invalid vertex line: ".toList ++ l)
  | offFace : AboutLine l .off true ("invalid face line: ".toList ++ l)
  | offMore : AboutLine l .off true ("unexpected line: ".toList ++ l)
  | plyHeader : AboutLine l .ply false ("invalid header line: ".toList ++ l)
  | plyVersion : AboutLine l .ply false "unsupported PLY version".toList
  | plyVertex : AboutLine l .ply false ("invalid vertex line: ".toList ++ l)
  | plyFace : AboutLine l .ply false ("invalid face line: ".toList ++ l)
  | plyMore : AboutLine l .ply false ("unexpected line: ".toList ++ l)

/-- The messages about the whole file; they go to the standard error output. -/
inductive AboutFile : Format → List Char → Prop
  | offEnd : AboutFile .off "unexpected end of file".toList
  | plyEnd : AboutFile .ply "unexpected end of file".toList
  | plyVertices : AboutFile .ply "element vertex not found".toList
  | plyX : AboutFile .ply "property x not found in element vertex".toList
  | plyY : AboutFile .ply "property y not found in element vertex".toList
  | plyZ : AboutFile .ply "property z not found in element vertex".toList
  | plyFaces : AboutFile .ply "element face not found".toList
  | plyIndices : AboutFile .ply "property vertex_index not found in element face".toList

end Kigumi.Spec.Messages
