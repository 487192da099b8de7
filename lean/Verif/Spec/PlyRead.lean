import Verif.Spec.PlyFile

/-!
# Which PLY files are read, and as what

More texts are read than those that are PLY files (`IsPly`): numbers need not be followed by white space. The rules for lines of the body are about characters.
-/
namespace Kigumi.Text.Ply
open Kigumi

variable {F : Type}

/-- The next word of a line, and what is after it. -/
inductive NextWord : List Char → List Char → List Char → Prop
  | intro {sp w rest : List Char} (hs : ∀ c ∈ sp, isSpace c = true) (hne : w ≠ []) (hw : ∀ c ∈ w, isSpace c = false) (hr : ∀ c r, rest = c :: r → isSpace c = true) : NextWord (sp ++ (w ++ rest)) w rest

/-- The number of at most 64 bits that comes next in a line, which is as long as possible, and what is after it. -/
inductive NextNumber : List Char → Nat → List Char → Prop
  | intro {sp w rest : List Char} {n : Nat} (hs : ∀ c ∈ sp, isSpace c = true) (hw : IsNatOrWrapped w n) (hr : ∀ c r, rest = c :: r → isDigit c = false) : NextNumber (sp ++ (w ++ rest)) n rest

/-- The next words, and what is after them. -/
inductive NextWords : Nat → List Char → List Char → Prop
  | nil (l : List Char) : NextWords 0 l l
  | cons {n : Nat} {l m r w : List Char} (h : NextWord l w m) (hs : NextWords n m r) : NextWords (n + 1) l r

/-- The numbers that come next, and what is after them. -/
inductive NextNumbers : List Char → List Nat → List Char → Prop
  | nil (l : List Char) : NextNumbers l [] l
  | cons {l m r : List Char} {n : Nat} {ns : List Nat} (h : NextNumber l n m) (hs : NextNumbers m ns r) : NextNumbers l (n :: ns) r

/-- What a property must be in a line. -/
inductive Item (F : Type)
  /-- any word -/
  | word
  /-- a number, and as many words of any kind -/
  | list
  /-- a word that is the double `x` -/
  | real (x : F)
  /-- the number of vertices, and the vertices -/
  | vertices (f : List Nat)

/-- The property comes next, and what is after it. -/
inductive Item.Next (N : Doubles F) : Item F → List Char → List Char → Prop
  | word {l w r : List Char} (h : NextWord l w r) : Item.Next N .word l r
  | list {l m r : List Char} {n : Nat} (h : NextNumber l n m) (hs : NextWords n m r) : Item.Next N .list l r
  | real {l w r : List Char} {x : F} (h : NextWord l w r) (hx : IsReal N w x) : Item.Next N (.real x) l r
  | vertices {l m r : List Char} {f : List Nat} (h : NextNumber l f.length m) (hs : NextNumbers m f r) : Item.Next N (.vertices f) l r

/-- The line has these properties, and maybe more. -/
inductive Holds (N : Doubles F) : List (Item F) → List Char → Prop
  | nil (l : List Char) : Holds N [] l
  | cons {i : Item F} {is : List (Item F)} {l m : List Char} (h : i.Next N l m) (hs : Holds N is m) : Holds N (i :: is) l

/-- A property that does not matter. -/
def Property.any (F : Type) (p : Property) : Item F := if p.isList then .list else .word

/-- The line of a vertex: the first scalar properties `x`, `y` and `z` are the coordinates. -/
def VertexTaken (N : Doubles F) (ps : List Property) (l : List Char) (p : P3 F) : Prop :=
  ∃ x y z, Coordinate ps "x".toList x ∧ Coordinate ps "y".toList y ∧ Coordinate ps "z".toList z ∧ Holds N ((((ps.map (Property.any F)).set x (.real p.1)).set y (.real p.2.1)).set z (.real p.2.2)) l

/-- The line of a face: the first list with one of the two names is the polygon. -/
def FaceTaken (N : Doubles F) (ps : List Property) (l : List Char) (f : List Nat) : Prop := ∃ i, Vertices ps i ∧ Holds N ((ps.map (Property.any F)).set i (.vertices f)) l

/-- The text is read with these points and polygons. -/
def TakenAsPly (N : Doubles F) (t : List Char) (ps : List (P3 F)) (fs : List (List Nat)) : Prop :=
  ∃ hdr els parts i j v f vl fl, LinesOf t (hdr ++ parts.flatten) ∧ Header IsNatOrWrapped hdr els ∧ List.Forall₂ (fun e part => part.length = e.count) els parts ∧ Needed els i j v f ∧ parts[i]? = some vl ∧ parts[j]? = some fl ∧
    List.Forall₂ (VertexTaken N v.props) vl ps ∧ List.Forall₂ (FaceTaken N f.props) fl fs

end Kigumi.Text.Ply
