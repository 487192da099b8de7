import Verif.Spec.Boolean
import Verif.Model.RegionBuilder
import Verif.Tactics
import Mathlib.Logic.Relation
/-!
# Arrangements of two boundaries: what it means for a soup to bound a set

Space is cut into cells by walls (triangles); a wall separates the cell behind it from the cell in front of it.
A soup bounds a set of cells when its faces are exactly the walls across which membership changes, each once, oriented
so that the member cell is behind the face (the convention of `Region::bounded_side`: the negative side is inside).
-/
namespace Kigumi.Spec
variable {P Cell D : Type}

/-- Cells separated by triangular walls. Different walls have different corner sets. -/
structure Arrangement (P Cell : Type) where
  Wall : Type
  tri : Wall → Tri P
  behind : Wall → Cell
  front : Wall → Cell
  distinct : ∀ w, (tri w).a ≠ (tri w).b ∧ (tri w).b ≠ (tri w).c ∧ (tri w).c ≠ (tri w).a
  support : ∀ w w', (∀ x, x ∈ (tri w).toList ↔ x ∈ (tri w').toList) → w = w'

/-- The same oriented triangle, up to the choice of the first corner. -/
def SameTri (t t' : Tri P) : Prop := t' = t ∨ t' = t.rot ∨ t' = t.rot.rot

instance [DecidableEq P] (t t' : Tri P) : Decidable (SameTri t t') := by unfold SameTri; infer_instance

/-- Neighbouring cells. -/
def Arrangement.Adj (ar : Arrangement P Cell) (c d : Cell) : Prop :=
  ∃ w, (ar.behind w = c ∧ ar.front w = d) ∨ (ar.behind w = d ∧ ar.front w = c)

/-- Any two cells are connected through walls (true of any arrangement of finitely many triangles in space). -/
def Arrangement.Connected (ar : Arrangement P Cell) : Prop := ∀ c d, Relation.ReflTransGen ar.Adj c d

/-- The oriented triangles `ts` bound the set of cells with indicator `χ`. -/
def Bounds [DecidableEq P] (ar : Arrangement P Cell) (ts : List (Tri P)) (χ : Cell → Bool) : Prop :=
  (∀ t ∈ ts, ∃ w, SameTri (ar.tri w) t ∨ SameTri (ar.tri w).flip t) ∧
  ∀ w, ts.countP (fun t => SameTri (ar.tri w) t) = (if χ (ar.behind w) && !χ (ar.front w) then 1 else 0) ∧
    ts.countP (fun t => SameTri (ar.tri w).flip t) = (if χ (ar.front w) && !χ (ar.behind w) then 1 else 0)

/-- `ts` lists the corner coordinates of the faces. -/
def HasCorners (points : List P) (faces : List (Tri Nat)) (ts : List (Tri P)) : Prop :=
  List.Forall₂ (fun (f : Tri Nat) (t : Tri P) =>
    points[f.a]? = some t.a ∧ points[f.b]? = some t.b ∧ points[f.c]? = some t.c) faces ts

/-- A region denotes the set of cells with indicator `χ`. -/
def Represents [DecidableEq P] (ar : Arrangement P Cell) (r : Region P D) (χ : Cell → Bool) : Prop :=
  match r.kind with
  | .empty => ∀ c, χ c = false
  | .full => ∀ c, χ c = true
  | .boundaryDefined => r.boundary.faces ≠ [] ∧ ∃ ts, HasCorners r.boundary.points r.boundary.faces ts ∧ Bounds ar ts χ

/-- The tag of a face with corners `t` tells the truth about the other operand, whose faces are `others` and whose
indicator is `χ'`. -/
def TagTrue (ar : Arrangement P Cell) (t : Tri P) (others : List (Tri P)) (χ' : Cell → Bool) (tag : Tag) : Prop :=
  (tag = .coplanar ↔ ∃ t' ∈ others, SameTri t t') ∧
  (tag = .opposite ↔ ∃ t' ∈ others, SameTri t.flip t') ∧
  tag ≠ .unknown ∧
  ∀ w, SameTri (ar.tri w) t ∨ SameTri (ar.tri w).flip t →
    (tag = .interior → χ' (ar.behind w) = true ∧ χ' (ar.front w) = true) ∧
    (tag = .exterior → χ' (ar.behind w) = false ∧ χ' (ar.front w) = false)

/-- The triangles of one operand. -/
def operandTris (ts : List (Tri P)) (data : List (MixedData D)) (left : Bool) : List (Tri P) :=
  ((ts.zip data).filter fun x => x.2.fromLeft == left).map Prod.fst

/-- A mixed soup is a correctly classified arrangement of two boundaries. -/
def Classified [DecidableEq P] (ar : Arrangement P Cell) (m : Soup P (MixedData D)) (χA χB : Cell → Bool) : Prop :=
  ∃ ts, HasCorners m.points m.faces ts ∧
    Bounds ar (operandTris ts m.data true) χA ∧ Bounds ar (operandTris ts m.data false) χB ∧
    ∀ x ∈ ts.zip m.data,
      TagTrue ar x.1 (operandTris ts m.data (!x.2.fromLeft)) (if x.2.fromLeft then χB else χA) x.2.tag

/-- The three legitimate forms of a region: empty or full without any boundary, or defined by a non-empty boundary. -/
def RegionInv (r : Region P D) : Prop :=
  match r.kind with
  | .empty => r.boundary = Soup.empty
  | .full => r.boundary = Soup.empty
  | .boundaryDefined => r.boundary.faces ≠ []

end Kigumi.Spec
