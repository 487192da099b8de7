import Verif.Spec.MeshFile

/-!
# Which OFF files are read, and as what

More texts are read than those that are OFF files (`IsOff`).
-/
namespace Kigumi.Text.Mesh
open Kigumi Ply

variable {F : Type}

/-- The line starts with these numbers of at most 64 bits: each may have white space in front and is as long as possible, negative numbers are taken modulo `2 ^ 64`, and what is after the last one does not matter.  Between two numbers there need not be anything if the second has a sign. -/
inductive Starts : List Char → List Nat → Prop
  | nil (l : List Char) : Starts l []
  | cons {sp w rest : List Char} {n : Nat} {ns : List Nat} (hs : ∀ c ∈ sp, isSpace c = true) (hw : IsNatOrWrapped w n) (hr : ∀ c r, rest = c :: r → isDigit c = false) (h : Starts rest ns) : Starts (sp ++ (w ++ rest)) (n :: ns)

/-- The text is read with these points and polygons: there are a signature, a line that starts with the numbers of vertices and of faces, the vertices and the faces; and no other lines but blank ones and comments. -/
def TakenAsOff (N : Doubles F) (t : List Char) (ps : List (P3 F)) (fs : List (List Nat)) : Prop :=
  ∃ ls sl cl vl fl, LinesOf t ls ∧ ls.filter significant = sl :: cl :: (vl ++ fl) ∧ IsSignature (words sl) ∧ Starts cl [vl.length, fl.length] ∧
    List.Forall₂ (fun l p => IsPoint N (words l) p) vl ps ∧ List.Forall₂ (fun l f => Starts l (f.length :: f)) fl fs

end Kigumi.Text.Mesh
