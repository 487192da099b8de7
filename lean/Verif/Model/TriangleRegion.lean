import Verif.Model.Prelude

/-!
# Simplex codes of a pair of triangles (include/kigumi/Triangle_region.h)

`Triangle_region` has `std::uint8_t` as underlying type; a code is a natural number below 256.
-/
namespace Kigumi.Region
open Kigumi Outcome

/-- `Triangle_region` (Triangle_region.h:9-24). -/
abbrev Code := Nat

def LV0 : Code := 1
def LV1 : Code := 2
def LV2 : Code := 4
def LE01 : Code := LV0 ||| LV1
def LE12 : Code := LV1 ||| LV2
def LE20 : Code := LV2 ||| LV0
def LF : Code := LV0 ||| LV1 ||| LV2
def RV0 : Code := 8
def RV1 : Code := 16
def RV2 : Code := 32
def RE01 : Code := RV0 ||| RV1
def RE12 : Code := RV1 ||| RV2
def RE20 : Code := RV2 ||| RV0
def RF : Code := RV0 ||| RV1 ||| RV2

/-- `convex_hull` (Triangle_region.h:26-29). -/
def hull (r s : Code) : Code := r ||| s

/-- `intersection` (Triangle_region.h:31-34). -/
def inter (r s : Code) : Code := r &&& s

/-- `edge_vertices` (Triangle_region.h:36-53). -/
def edgeVertices (e : Code) : Outcome (Code × Code) :=
  if e = LE01 then ok (LV0, LV1)
  else if e = LE12 then ok (LV1, LV2)
  else if e = LE20 then ok (LV2, LV0)
  else if e = RE01 then ok (RV0, RV1)
  else if e = RE12 then ok (RV1, RV2)
  else if e = RE20 then ok (RV2, RV0)
  else exn "the region must be an edge"

/-- `face_edges` (Triangle_region.h:55-67). -/
def faceEdges (f : Code) : Outcome (Code × Code × Code) :=
  if f = LF then ok (LE01, LE12, LE20)
  else if f = RF then ok (RE01, RE12, RE20)
  else exn "the region must be a face"

/-- `face_vertices` (Triangle_region.h:69-81). -/
def faceVertices (f : Code) : Outcome (Code × Code × Code) :=
  if f = LF then ok (LV0, LV1, LV2)
  else if f = RF then ok (RV0, RV1, RV2)
  else exn "the region must be a face"

/-- `dimension` (Triangle_region.h:83-105). -/
def dimension (r : Code) : Outcome Nat :=
  if r = LV0 ∨ r = LV1 ∨ r = LV2 ∨ r = RV0 ∨ r = RV1 ∨ r = RV2 then ok 0
  else if r = LE01 ∨ r = LE12 ∨ r = LE20 ∨ r = RE01 ∨ r = RE12 ∨ r = RE20 then ok 1
  else if r = LF ∨ r = RF then ok 2
  else exn "the region must be a simplex"

/-- `is_left_region` (Triangle_region.h:107-109). -/
def isLeft (r : Code) : Bool := hull r LF == LF

end Kigumi.Region
