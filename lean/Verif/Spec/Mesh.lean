import Verif.Model.Prelude

/-! # Incidence (spec) -/
namespace Kigumi.Spec

/-- Vertex `v` is a corner of face number `i`. -/
def Incident (fs : List (Tri Nat)) (v i : Nat) : Prop := ∃ f, fs[i]? = some f ∧ (v = f.a ∨ v = f.b ∨ v = f.c)

/-- The edge between `v` and `w` is in the border set (stored with ordered endpoints). -/
def IsBorder (border : List (Nat × Nat)) (v w : Nat) : Prop := (min v w, max v w) ∈ border

/-- `v`, `w` are the endpoints of a side of the face. -/
def IsSide (f : Tri Nat) (v w : Nat) : Prop := (v = f.a ∧ w = f.b) ∨ (v = f.b ∧ w = f.c) ∨ (v = f.c ∧ w = f.a)

/-- Face `j` contains both endpoints of a side of face `i` that is not a border edge. -/
def SharesNonBorder (fs : List (Tri Nat)) (border : List (Nat × Nat)) (i j : Nat) : Prop :=
  ∃ f v w, fs[i]? = some f ∧ IsSide f v w ∧ ¬ IsBorder border v w ∧ Incident fs v j ∧ Incident fs w j

/-- All faces have three different corners. -/
def Proper (fs : List (Tri Nat)) : Prop := ∀ f ∈ fs, f.a ≠ f.b ∧ f.b ≠ f.c ∧ f.a ≠ f.c

/-- Same corners in the same cyclic order. -/
def SameFace {α : Type} (f g : Tri α) : Prop := g = f ∨ g = f.rot ∨ g = f.rot.rot

/-- `r` is the corner of the face that is not on its edge `pq`. -/
def Apex (p q : Nat) (f : Tri Nat) (r : Nat) : Prop := SameFace ⟨p, q, r⟩ f ∨ SameFace ⟨q, p, r⟩ f

variable {P : Type}

/-- Face number `i` of a soup has the corners `t`. -/
def FaceCorners (pts : List P) (fs : List (Tri Nat)) (i : Nat) (t : Tri P) : Prop :=
  ∃ f, fs[i]? = some f ∧ pts[f.a]? = some t.a ∧ pts[f.b]? = some t.b ∧ pts[f.c]? = some t.c

/-- All vertex indices of the faces refer to points. -/
def ValidFaces (pts : List P) (fs : List (Tri Nat)) : Prop := ∀ f ∈ fs, f.a < pts.length ∧ f.b < pts.length ∧ f.c < pts.length

/-- The corners of every face are three different points. -/
def ThreeCorners (pts : List P) (fs : List (Tri Nat)) : Prop :=
  ∀ i t, FaceCorners pts fs i t → t.a ≠ t.b ∧ t.b ≠ t.c ∧ t.a ≠ t.c

/-- No two faces have the same corners, with whatever orientation. -/
def NoRepeatedFaces (pts : List P) (fs : List (Tri Nat)) : Prop :=
  ∀ i j t u, FaceCorners pts fs i t → FaceCorners pts fs j u → (SameFace t u ∨ SameFace t u.flip) → i = j

end Kigumi.Spec
