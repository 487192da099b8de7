import Verif.Model.TextIO

/-!
# What mesh files mean

Texts of meshes with polygons, and the triangles that a polygon stands for.
-/
namespace Kigumi.Text
open Kigumi

variable {F : Type}

/-- The triangle fan of a polygon. -/
def fan : List Nat → List (Tri Nat)
  | [] => []
  | a :: r => (r.zip r.tail).map fun e => ⟨a, e.1, e.2⟩

/-- A point in a line. -/
def pointLine (N : Doubles F) (p : P3 F) : List Char := N.fmt p.1 ++ ' ' :: (N.fmt p.2.1 ++ ' ' :: N.fmt p.2.2)

/-- A reference to a vertex in an OBJ file: a number, counted from 1 or backwards from the last vertex so far, and what follows it (texture and normal). -/
structure Ref where
  v : Int
  suffix : List Char

/-- The reference is to one of `nv` vertices. -/
structure Ref.Valid (nv : Nat) (r : Ref) : Prop where
  ne : r.v ≠ 0
  low : -(nv : Int) ≤ r.v
  high : r.v < 2 ^ 63
  suffix_no_space : ∀ c ∈ r.suffix, isSpace c = false
  suffix_no_digit : ∀ c t, r.suffix = c :: t → isDigit c = false

/-- The vertex. -/
def Ref.index (nv : Nat) (r : Ref) : Nat := if 0 < r.v then (r.v - 1).toNat else nv - r.v.natAbs

def objVertexLine (N : Doubles F) (p : P3 F) : List Char := 'v' :: ' ' :: pointLine N p
def objFaceLine (rs : List Ref) : List Char := 'f' :: rs.flatMap fun r => ' ' :: (decInt r.v ++ r.suffix)

/-- The number of vertices, the vertices, and anything else. -/
structure Polygon where
  vertices : List Nat
  extra : List Char

/-- Numbers have 64 bits; what follows is separated by white space, and is in the same line. -/
structure Polygon.Valid (p : Polygon) : Prop where
  count : p.vertices.length < 2 ^ 64
  index : ∀ v ∈ p.vertices, v < 2 ^ 64
  extra_space : ∀ c t, p.extra = c :: t → isSpace c = true
  extra_line : '\n' ∉ p.extra

def polygonLine (p : Polygon) : List Char := dec p.vertices.length ++ (p.vertices.flatMap (fun v => ' ' :: dec v) ++ p.extra)

/-- Lines as a text. -/
def textOf (ls : List (List Char)) : List Char := ls.flatMap fun l => l ++ ['\n']

/-- An OBJ file: vertices, then faces. -/
def objText (N : Doubles F) (ps : List (P3 F)) (fs : List (List Ref)) : List Char := textOf (ps.map (objVertexLine N) ++ fs.map objFaceLine)

/-- An OFF file. -/
def offText (N : Doubles F) (ps : List (P3 F)) (fs : List Polygon) : List Char :=
  textOf (["OFF".toList, dec ps.length ++ ' ' :: (dec fs.length ++ " 0".toList)] ++ ps.map (pointLine N) ++ fs.map polygonLine)

/-- A PLY file. -/
def plyText (N : Doubles F) (ps : List (P3 F)) (fs : List Polygon) : List Char :=
  textOf (["ply".toList, "format ascii 1.0".toList, "element vertex ".toList ++ dec ps.length, "property float x".toList, "property float y".toList, "property float z".toList,
    "element face ".toList ++ dec fs.length, "property list uchar int vertex_index".toList, "end_header".toList] ++ ps.map (pointLine N) ++ fs.map polygonLine)

/-- Not blank and not a comment: the first character that is not white space exists and is not `#`. -/
def significant (l : List Char) : Bool := match l.dropWhile isSpace with
  | [] => false
  | c :: _ => c ≠ '#'

/-- The line holds the numbers of vertices and faces (and maybe more). -/
def CountsLine (l : List Char) (nv nf : Nat) : Prop :=
  ((IS.of l).readSize 0).2 = nv ∧ (((IS.of l).readSize 0).1.readSize 0).2 = nf ∧ (((IS.of l).readSize 0).1.readSize 0).1.fail = false

/-- The line holds a point (and maybe more). -/
def PointLine (N : Doubles F) (l : List Char) (p : P3 F) : Prop := readPoint N (IS.of l) = some p

/-- The line holds a number of vertices and as many vertices (and maybe more). -/
def PolygonLine (l : List Char) (vs : List Nat) : Prop :=
  ((IS.of l).readSize 0).2 = vs.length ∧ readIndices vs.length ((IS.of l).readSize 0).1 = ((readIndices vs.length ((IS.of l).readSize 0).1).1, vs) ∧ (readIndices vs.length ((IS.of l).readSize 0).1).1.fail = false

end Kigumi.Text
