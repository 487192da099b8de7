import Verif.Spec.PlyFile

/-!
# OFF and OBJ files

What files in these formats mean, word by word. Lines that are blank or start with `#` do not matter.
-/
namespace Kigumi.Text.Mesh
open Kigumi Ply

variable {F : Type}

/-- Nothing, or a comment. -/
def Comment (ws : List (List Char)) : Prop := ws = [] ∨ ∃ r rest, ws = ('#' :: r) :: rest

/-- Three coordinates, and maybe more. -/
def IsPoint (N : Doubles F) (ws : List (List Char)) (p : P3 F) : Prop := ∃ x y z rest, ws = x :: y :: z :: rest ∧ IsReal N x p.1 ∧ IsReal N y p.2.1 ∧ IsReal N z p.2.2

/-! ## OFF -/

/-- The first word: `OFF`, and in front of it `ST` if there are texture coordinates, `C` if there are colours, `N` if there are normals. -/
def offNames : List (List Char) := ["OFF".toList, "NOFF".toList, "COFF".toList, "CNOFF".toList, "STOFF".toList, "STNOFF".toList, "STCOFF".toList, "STCNOFF".toList]

/-- The first line. -/
def IsSignature (ws : List (List Char)) : Prop := ∃ name rest, ws = name :: rest ∧ name ∈ offNames ∧ Comment rest

/-- The number of vertices, the vertices, and maybe more. -/
def IsPolygon (ws : List (List Char)) (f : List Nat) : Prop := ∃ c items rest, ws = c :: (items ++ rest) ∧ IsNat c items.length ∧ List.Forall₂ IsNat items f

/-- The text is an OFF file with these points and polygons: the signature, the numbers of vertices and faces, the vertices and the faces, each in a line. -/
def IsOff (N : Doubles F) (t : List Char) (ps : List (P3 F)) (fs : List (List Nat)) : Prop :=
  ∃ ls sl cl vl fl a b rest, LinesOf t ls ∧ ls.filter significant = sl :: cl :: (vl ++ fl) ∧ IsSignature (words sl) ∧ words cl = a :: b :: rest ∧ IsNat a vl.length ∧ IsNat b fl.length ∧
    List.Forall₂ (fun l p => IsPoint N (words l) p) vl ps ∧ List.Forall₂ (fun l f => IsPolygon (words l) f) fl fs

/-- There is no number: no word at all, or one that starts otherwise. -/
def NoNumber (ws : List (List Char)) : Prop := ws = [] ∨ ∃ c r rest, ws = (c :: r) :: rest ∧ isDigit c = false ∧ c ≠ '+' ∧ c ≠ '-'

/-- A number of vertices, and then fewer vertices than that. -/
def Incomplete (ws : List (List Char)) : Prop := ∃ c n items f rest, ws = c :: (items ++ rest) ∧ IsNat c n ∧ List.Forall₂ IsNat items f ∧ items.length < n ∧ NoNumber rest

/-- The values of the properties, and what comes after them. -/
inductive Before : List Property → List (List Char) → List (List Char) → Prop
  | nil (ws : List (List Char)) : Before [] ws ws
  | one {p : Property} {ps : List Property} {w : List Char} {ws r : List (List Char)} (hp : p.isList = false) (h : Before ps ws r) : Before (p :: ps) (w :: ws) r
  | many {p : Property} {ps : List Property} {c : List Char} {items ws r : List (List Char)} (hp : p.isList = true) (hc : IsNat c items.length) (h : Before ps ws r) : Before (p :: ps) (c :: (items ++ ws)) r

/-! ## OBJ -/

/-- The word is the number `v`, which has at most 64 bits. -/
def IsInt (w : List Char) (v : Int) : Prop :=
  -2 ^ 63 ≤ v ∧ v < 2 ^ 63 ∧ ∃ ds, ds ≠ [] ∧ (∀ c ∈ ds, isDigit c = true) ∧ ((w = ds ∨ w = '+' :: ds) ∧ v = digitsValue 0 ds ∨ w = '-' :: ds ∧ v = -(digitsValue 0 ds : Int))

/-- The word refers to the vertex `i`, where `n` vertices are above: numbers count from 1 or, if they are negative, backwards from the last one above.  What is after a slash (texture and normal) does not matter. -/
def IsRef (n : Nat) (w : List Char) (i : Nat) : Prop :=
  ∃ b suf v, w = b ++ suf ∧ (suf = [] ∨ ∃ r, suf = '/' :: r) ∧ IsInt b v ∧ (0 < v ∧ v = i + 1 ∨ v < 0 ∧ (i : Int) = n + v)

/-- Lines that give points and polygons, where `n` vertices are above. -/
inductive ObjLines (N : Doubles F) : Nat → List (List (List Char)) → List (P3 F) → List (List Nat) → Prop
  | nil (n : Nat) : ObjLines N n [] [] []
  | vertex {n : Nat} {ws : List (List Char)} {ls : List (List (List Char))} {p : P3 F} {ps : List (P3 F)} {fs : List (List Nat)} (hp : IsPoint N ws p) (h : ObjLines N (n + 1) ls ps fs) : ObjLines N n (("v".toList :: ws) :: ls) (p :: ps) fs
  | face {n : Nat} {refs rest : List (List Char)} {ls : List (List (List Char))} {f : List Nat} {ps : List (P3 F)} {fs : List (List Nat)} (hf : List.Forall₂ (IsRef n) refs f) (hr : Comment rest) (h : ObjLines N n ls ps fs) : ObjLines N n (("f".toList :: (refs ++ rest)) :: ls) ps (f :: fs)
  | other {n : Nat} {w : List Char} {ws : List (List Char)} {ls : List (List (List Char))} {ps : List (P3 F)} {fs : List (List Nat)} (hv : w ≠ "v".toList) (hf : w ≠ "f".toList) (h : ObjLines N n ls ps fs) : ObjLines N n ((w :: ws) :: ls) ps fs

/-- The text is an OBJ file with these points and polygons. -/
def IsObj (N : Doubles F) (t : List Char) (ps : List (P3 F)) (fs : List (List Nat)) : Prop := ∃ ls, LinesOf t ls ∧ ObjLines N 0 ((ls.filter significant).map words) ps fs

end Kigumi.Text.Mesh
