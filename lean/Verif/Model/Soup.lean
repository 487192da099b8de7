import Verif.Model.BooleanOperator
/-!
# Triangle soups and mixed soups (without the cached spatial index, see Model/SoupCache)
-/
namespace Kigumi

/-- `Triangle_soup<K, FaceData>`: the three vectors (include/kigumi/Triangle_soup.h:145-147).
Vertex and face indices are natural numbers. The cached tree is modelled in Model/SoupCache.lean. -/
structure Soup (P D : Type) where
  points : List P
  faces : List (Tri Nat)
  data : List D
  deriving DecidableEq, Repr

namespace Soup
variable {P D : Type}

/-- Default-constructed soup, Triangle_soup.h:45. -/
def empty : Soup P D := ⟨[], [], []⟩

/-- `add_vertex`, Triangle_soup.h:79-82. -/
def addVertex (s : Soup P D) (p : P) : Soup P D × Nat :=
  ({ s with points := s.points ++ [p] }, s.points.length)

/-- `add_face` (84-88) followed by `soup.data(new_fi) = d` as in Extract.h:74-75. -/
def addFace (s : Soup P D) (f : Tri Nat) (d : D) : Soup P D :=
  { s with faces := s.faces ++ [f], data := s.data ++ [d] }

/-- Every face index refers to a vertex and there is one data record per face.  Precondition of the library
(never checked by the constructor of Triangle_soup.h:76-77); established by the producers, see Props. -/
def WF (s : Soup P D) : Prop :=
  s.data.length = s.faces.length ∧ ∀ f ∈ s.faces, ∀ v ∈ f.toList, v < s.points.length

end Soup

/-- `Mixed_face_data`, include/kigumi/Mixed.h:9-14. -/
structure MixedData (D : Type) where
  fromLeft : Bool
  tag : Tag
  data : D
  deriving DecidableEq, Repr

end Kigumi
