import Verif.Spec.MeshFile

/-!
# Which OBJ files are read, and as what

More texts are read than those that are OBJ files (`IsObj`). The rules are about words of lines only.
-/
namespace Kigumi.Text.Mesh
open Kigumi Ply

variable {F : Type}

/-- The word starts with the number `v` of at most 64 bits; anything but a digit may follow. -/
def Leads (w : List Char) (v : Int) : Prop := ∃ b suf, w = b ++ suf ∧ (∀ c r, suf = c :: r → isDigit c = false) ∧ IsInt b v

/-- The vertex that a number refers to, where `n` vertices are above: numbers that reach back beyond the first vertex refer to indices that no mesh has. -/
def RefersTo (n : Nat) (v : Int) (i : Nat) : Prop := 0 < v ∧ (i : Int) = v - 1 ∨ v < 0 ∧ (i : Int) = (n + v) % 2 ^ 64

/-- The words of a face, up to the first one that does not start with a number; none of them starts with the number 0. -/
inductive FaceWords (n : Nat) : List (List Char) → List Nat → Prop
  | nil : FaceWords n [] []
  | stop {w : List Char} {ws : List (List Char)} (h : ∀ v, ¬ Leads w v) : FaceWords n (w :: ws) []
  | ref {w : List Char} {ws : List (List Char)} {v : Int} {i : Nat} {f : List Nat} (h : Leads w v) (hi : RefersTo n v i) (hf : FaceWords n ws f) : FaceWords n (w :: ws) (i :: f)

/-- Lines that are read, where `n` vertices are above: vertices have three coordinates, faces are as above, and other lines do not matter. -/
inductive ObjTaken (N : Doubles F) : Nat → List (List (List Char)) → List (P3 F) → List (List Nat) → Prop
  | nil (n : Nat) : ObjTaken N n [] [] []
  | vertex {n : Nat} {ws : List (List Char)} {ls : List (List (List Char))} {p : P3 F} {ps : List (P3 F)} {fs : List (List Nat)} (hp : IsPoint N ws p) (h : ObjTaken N (n + 1) ls ps fs) : ObjTaken N n (("v".toList :: ws) :: ls) (p :: ps) fs
  | face {n : Nat} {ws : List (List Char)} {ls : List (List (List Char))} {f : List Nat} {ps : List (P3 F)} {fs : List (List Nat)} (hf : FaceWords n ws f) (h : ObjTaken N n ls ps fs) : ObjTaken N n (("f".toList :: ws) :: ls) ps (f :: fs)
  | other {n : Nat} {w : List Char} {ws : List (List Char)} {ls : List (List (List Char))} {ps : List (P3 F)} {fs : List (List Nat)} (hv : w ≠ "v".toList) (hf : w ≠ "f".toList) (h : ObjTaken N n ls ps fs) : ObjTaken N n ((w :: ws) :: ls) ps fs

/-- The text is read with these points and polygons. -/
def TakenAsObj (N : Doubles F) (t : List Char) (ps : List (P3 F)) (fs : List (List Nat)) : Prop := ∃ ls, LinesOf t ls ∧ ObjTaken N 0 ((ls.filter significant).map words) ps fs

end Kigumi.Text.Mesh
