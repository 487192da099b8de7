import Verif.Model.RegionLife

/-!
# Regions as values

Programs with regions that have a kind, vertices and faces, and nothing else: whenever a computation asks for the leaves of the index, they are made of the faces that there are.
-/
namespace Kigumi.Spec.RegionLife
open Kigumi Outcome
open Kigumi.SoupCache (Leaf makeLeaves)
open Kigumi.RegionLife (Val Req Lib Stmt Out)
variable {P Q C A R : Type}

abbrev Vals (P : Type) := Nat → Val P

def set (s : Vals P) (v : Nat) (x : Val P) : Vals P := fun w => if w = v then x else s w

/-- The result of a computation with two values. -/
def result (a b : Val P) : Req P R → Outcome R
  | .done o => o
  | .ask second k => (makeLeaves (if second then b else a).points 0 (if second then b else a).faces).bind fun t => result a b (k t)

/-- What is seen of a query or an operation, and what becomes of the values. -/
def seen (s : Vals P) (o : Outcome R) (f : R → Vals P × Out A) : Outcome (Vals P × Out A) :=
  match o with
  | ok r => ok (f r)
  | exn m => ok (s, .threw m)
  | ub u => ub u

/-- One operation. -/
def step (L : Lib P Q C A) (s : Vals P) : Stmt P Q C → Outcome (Vals P × Out A)
  | .empty v => ok (set s v ⟨.empty, [], []⟩, .nothing)
  | .full v => ok (set s v ⟨.full, [], []⟩, .nothing)
  | .ofSoup v ps fs => if fs = [] then ok (s, .threw "region boundary must not be empty") else ok (set s v ⟨.boundaryDefined, ps, fs⟩, .nothing)
  | .copyCtor d c => if d = c then ub "self construction" else ok (set s d (s c), .nothing)
  | .copyAssign d c => ok (set s d (s c), .nothing)
  | .moveCtor d c => if d = c then ub "self construction" else ok (set (set s d (s c)) c ⟨(s c).kind, [], []⟩, .nothing)
  | .moveAssign d c => if d = c then ub "self move" else ok (set (set s d (s c)) c ⟨(s c).kind, [], []⟩, .nothing)
  | .addVertex v p => ok (set s v ⟨(s v).kind, (s v).points ++ [p], (s v).faces⟩, .nothing)
  | .addFace v f => ok (set s v ⟨(s v).kind, (s v).points, (s v).faces ++ [f]⟩, .nothing)
  | .read v k ps fs => ok (set s v ⟨k, (s v).points ++ ps, (s v).faces ++ fs⟩, .nothing)
  | .query v q => seen s (result (s v) (s v) (L.query q (s v))) fun a => (s, .answer a)
  | .combine d c a b => seen s (result (s a) (s b) (L.combine c (s a) (s b))) fun r => (set s d r, .nothing)

/-- A program. -/
def run (L : Lib P Q C A) : Vals P → List (Stmt P Q C) → Outcome (Vals P × List (Out A))
  | s, [] => ok (s, [])
  | s, op :: ops => do
    let (s, o) ← step L s op
    let (s, os) ← run L s ops
    ok (s, o :: os)

/-- The regions that have been asked or combined since they got their value, after an operation. -/
def asked (u : Nat → Prop) (o : Out A) : Stmt P Q C → Nat → Prop
  | .empty v, w | .full v, w => w ≠ v ∧ u w
  | .ofSoup v _ _, w => u w ∧ (o = .nothing → w ≠ v)
  | .copyCtor d _, w => w ≠ d ∧ u w
  | .copyAssign d c, w => u w ∧ (w = d → d = c)
  | .moveCtor d c, w | .moveAssign d c, w => w ≠ c ∧ (w = d → u c) ∧ (w ≠ d → u w)
  | .addVertex _ _, w | .addFace _ _, w | .read _ _ _ _, w => u w
  | .query v _, w => w = v ∨ u w
  | .combine d _ a b, w => (w = a ∨ w = b ∨ u w) ∧ (o = .nothing → w ≠ d)

/-- No face is added to a region that has been asked or combined. -/
def Allowed (u : Nat → Prop) : Stmt P Q C → Prop
  | .addFace v _ => ¬ u v
  | .read v _ _ fs => fs = [] ∨ ¬ u v
  | _ => True

/-- A program that never does so. -/
def Calm (L : Lib P Q C A) : (Nat → Prop) → Vals P → List (Stmt P Q C) → Prop
  | _, _, [] => True
  | u, s, op :: ops => Allowed u op ∧ ∀ s' o, step L s op = ok (s', o) → Calm L (asked u o op) s' ops

end Kigumi.Spec.RegionLife
