import Verif.Spec.MeshText
import Mathlib.Data.List.Forall2

/-!
# PLY files

What a file in the ASCII variant of the PLY format means: a header that declares elements with properties, and a line for each instance of each element. White space separates words; a mesh is given by the first element `vertex`, with properties `x`, `y`, `z`,
and the first element `face`, with a list `vertex_index` or `vertex_indices`.
-/
namespace Kigumi.Text.Ply
open Kigumi

variable {F : Type}

/-- The words of a line. -/
def words (l : List Char) : List (List Char) := (l.splitOnP isSpace).filter (· ≠ [])

/-- The text consists of these lines; the end of the last one may be missing. -/
def LinesOf (t : List Char) (ls : List (List Char)) : Prop :=
  (∀ l ∈ ls, '\n' ∉ l) ∧ (t = textOf ls ∨ ∃ init last, ls = init ++ [last] ∧ last ≠ [] ∧ t = textOf init ++ last)

/-- The value of decimal digits. -/
def digitsValue : Nat → List Char → Nat
  | a, [] => a
  | a, c :: r => digitsValue (10 * a + (c.toNat - '0'.toNat)) r

/-- The word is the number `n`, which has at most 64 bits: digits, maybe with a plus sign. -/
def IsNat (w : List Char) (n : Nat) : Prop :=
  n < 2 ^ 64 ∧ ∃ ds, (w = ds ∨ w = '+' :: ds) ∧ ds ≠ [] ∧ (∀ c ∈ ds, isDigit c = true) ∧ digitsValue 0 ds = n

/-- Numbers as C++ reads them: negative numbers are taken modulo `2 ^ 64`. -/
def IsNatOrWrapped (w : List Char) (n : Nat) : Prop :=
  IsNat w n ∨ ∃ ds m, w = '-' :: ds ∧ IsNat ds m ∧ (∀ r, ds ≠ '+' :: r) ∧ n = (2 ^ 64 - m) % 2 ^ 64

/-- The word is the double `x`, maybe with a plus sign. -/
def IsReal (N : Doubles F) (w : List Char) (x : F) : Prop := (∃ r, w = '+' :: r ∧ N.parse r = some x) ∨ (∀ r, w ≠ '+' :: r) ∧ N.parse w = some x

/-- A property of an element. -/
inductive Property
  | scalar (type name : List Char)
  | list (count item name : List Char)

namespace Property

def name : Property → List Char
  | scalar _ n => n
  | list _ _ n => n

def isList : Property → Bool
  | scalar _ _ => false
  | list _ _ _ => true

/-- The words of its line in the header. -/
def line : Property → List (List Char)
  | scalar t n => ["property".toList, t, n]
  | list c i n => ["property".toList, "list".toList, c, i, n]

/-- Scalars do not have the type `list`. -/
def Valid : Property → Prop
  | scalar t _ => t ≠ "list".toList
  | list _ _ _ => True

instance : DecidablePred Valid
  | scalar t _ => inferInstanceAs (Decidable (t ≠ "list".toList))
  | list _ _ _ => inferInstanceAs (Decidable True)

end Property

/-- An element: its name, the number of instances and the properties. -/
structure Element where
  name : List Char
  count : Nat
  props : List Property

/-- The words of the lines of the header that declare the element, `C` says how numbers are written. -/
inductive Element.Declared (C : List Char → Nat → Prop) (e : Element) : List (List (List Char)) → Prop
  | intro (c : List Char) (hc : C c e.count) : Element.Declared C e (["element".toList, e.name, c] :: e.props.map Property.line)

/-- The line says something: it is neither empty nor a comment. -/
def meaningful (ws : List (List Char)) : Bool := match ws with
  | [] => false
  | w :: _ => w ≠ "comment".toList

/-- A header that declares the elements, with comments and empty lines anywhere. -/
def Header (C : List Char → Nat → Prop) (hdr : List (List Char)) (els : List Element) : Prop :=
  ∃ init l last decls, hdr = init ++ [l] ∧ words l = "end_header".toList :: last ∧ List.Forall₂ (Element.Declared C) els decls ∧ (∀ e ∈ els, ∀ p ∈ e.props, p.Valid) ∧
    (init.map words).filter meaningful = [["ply".toList], ["format".toList, "ascii".toList, "1.0".toList]] ++ decls.flatten

/-- The value of a property. -/
inductive Val
  | one (w : List Char)
  | many (ws : List (List Char))

/-- The words are values of the properties, and others that do not matter. -/
inductive Fills : List Property → List (List Char) → List Val → Prop
  | nil (ws : List (List Char)) : Fills [] ws []
  | one {p : Property} {ps : List Property} {w : List Char} {ws : List (List Char)} {vs : List Val} (hp : p.isList = false) (h : Fills ps ws vs) : Fills (p :: ps) (w :: ws) (.one w :: vs)
  | many {p : Property} {ps : List Property} {c : List Char} {items ws : List (List Char)} {vs : List Val} (hp : p.isList = true) (hc : IsNat c items.length) (h : Fills ps ws vs) : Fills (p :: ps) (c :: (items ++ ws)) (.many items :: vs)

/-- `i` is the first place with the property. -/
def First {α : Type} (l : List α) (P : α → Prop) (i : Nat) : Prop := (∃ a, l[i]? = some a ∧ P a) ∧ ∀ j < i, ∀ a, l[j]? = some a → ¬ P a

/-- The first scalar property with this name. -/
def Coordinate (ps : List Property) (n : List Char) (i : Nat) : Prop := First ps (fun p => p.isList = false ∧ p.name = n) i

/-- The line of an instance of the element `vertex` with properties `ps`. -/
def IsVertex (N : Doubles F) (ps : List Property) (l : List Char) (p : P3 F) : Prop :=
  ∃ vs x y z wx wy wz, Fills ps (words l) vs ∧ Coordinate ps "x".toList x ∧ Coordinate ps "y".toList y ∧ Coordinate ps "z".toList z ∧
    vs[x]? = some (.one wx) ∧ vs[y]? = some (.one wy) ∧ vs[z]? = some (.one wz) ∧ IsReal N wx p.1 ∧ IsReal N wy p.2.1 ∧ IsReal N wz p.2.2

/-- The list of vertices. -/
def Vertices (ps : List Property) (i : Nat) : Prop := First ps (fun p => p.isList = true ∧ (p.name = "vertex_index".toList ∨ p.name = "vertex_indices".toList)) i

/-- The line of an instance of the element `face` with properties `ps`. -/
def IsFace (ps : List Property) (l : List Char) (f : List Nat) : Prop :=
  ∃ vs i ws, Fills ps (words l) vs ∧ Vertices ps i ∧ vs[i]? = some (.many ws) ∧ List.Forall₂ IsNat ws f

/-- The elements and properties that are needed. -/
structure Needed (els : List Element) (i j : Nat) (v f : Element) : Prop where
  vertex : First els (fun e => e.name = "vertex".toList) i
  face : First els (fun e => e.name = "face".toList) j
  atVertex : els[i]? = some v
  atFace : els[j]? = some f
  x : ∃ k, Coordinate v.props "x".toList k
  y : ∃ k, Coordinate v.props "y".toList k
  z : ∃ k, Coordinate v.props "z".toList k
  vertices : ∃ k, Vertices f.props k

/-- The text is a PLY file with these points and polygons: after the header, there are the lines of the first element, then those of the second one, etc. -/
def IsPly (N : Doubles F) (t : List Char) (ps : List (P3 F)) (fs : List (List Nat)) : Prop :=
  ∃ hdr els parts i j v f vl fl, LinesOf t (hdr ++ parts.flatten) ∧ Header IsNat hdr els ∧ List.Forall₂ (fun e part => part.length = e.count) els parts ∧ Needed els i j v f ∧ parts[i]? = some vl ∧ parts[j]? = some fl ∧
    List.Forall₂ (IsVertex N v.props) vl ps ∧ List.Forall₂ (IsFace f.props) fl fs

end Kigumi.Text.Ply
