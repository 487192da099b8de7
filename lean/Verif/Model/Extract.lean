import Verif.Model.Soup
/-!
# Extraction of the result faces (include/kigumi/Extract.h)
-/
namespace Kigumi
variable {P D : Type}

/-- The `switch` of Extract.h:31-47: the mask for a face tag. -/
def tagMask (op : Op) (preferFirst : Bool) : Tag → Mask
  | .exterior => unionMask op
  | .interior => intersectionMask op
  | .coplanar => coplanarMask op preferFirst
  | .opposite => oppositeMask op preferFirst
  | .unknown => Mask.NONE

/-- `output_id`, Extract.h:50-51. -/
def outputId (mask : Mask) (fromLeft : Bool) : Bool :=
  if fromLeft then mask &&& Mask.A != Mask.NONE else mask &&& Mask.B != Mask.NONE

/-- `output_inv`, Extract.h:52-53. -/
def outputInv (mask : Mask) (fromLeft : Bool) : Bool :=
  if fromLeft then mask &&& Mask.A_INV != Mask.NONE else mask &&& Mask.B_INV != Mask.NONE

/-- State of the extraction loop: the new soup and `map` (Extract.h:22-23).  A default-constructed `Vertex_index`
(the value 2^64-1, never a valid index) is represented by `none`. -/
structure ExtractState (P D : Type) where
  soup : Soup P D
  map : List (Option Nat)

/-- Body of the inner loop, Extract.h:61-67: translate one vertex index, adding the vertex on first use. -/
def extractVertex (points : List P) (st : ExtractState P D) (v : Nat) : Outcome (ExtractState P D × Nat) := do
  match ← Outcome.at! st.map v with
  | some w => pure (st, w)
  | none =>
    let p ← Outcome.at! points v
    let (soup, w) := st.soup.addVertex p
    pure (⟨soup, st.map.set v (some w)⟩, w)

/-- Body of the outer loop for one face, Extract.h:31-75. -/
def extractFace (m : Soup P (MixedData D)) (op : Op) (preferFirst : Bool) (st : ExtractState P D) (fi : Nat) :
    Outcome (ExtractState P D) := do
  let d ← Outcome.at! m.data fi
  let mask := tagMask op preferFirst d.tag
  let id := outputId mask d.fromLeft
  let inv := outputInv mask d.fromLeft
  if !id && !inv then
    pure st
  else
    let f ← Outcome.at! m.faces fi
    let (st, a) ← extractVertex m.points st f.a
    let (st, b) ← extractVertex m.points st f.b
    let (st, c) ← extractVertex m.points st f.c
    let newF : Tri Nat := ⟨a, b, c⟩
    let newF := if inv then newF.flip else newF
    pure ⟨st.soup.addFace newF d.data, st.map⟩

/-- The face loop, Extract.h:30-76, over a list of face indices. -/
def extractLoop (m : Soup P (MixedData D)) (op : Op) (preferFirst : Bool) :
    ExtractState P D → List Nat → Outcome (ExtractState P D)
  | st, [] => pure st
  | st, fi :: fis => do
    let st ← extractFace m op preferFirst st fi
    extractLoop m op preferFirst st fis

/-- `Extract::operator()`, Extract.h:20-79. -/
def extract (m : Soup P (MixedData D)) (op : Op) (preferFirst : Bool) : Outcome (Soup P D) := do
  let st ← extractLoop m op preferFirst ⟨Soup.empty, List.replicate m.points.length none⟩ (List.range m.faces.length)
  pure st.soup

end Kigumi
