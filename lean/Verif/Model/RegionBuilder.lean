import Verif.Model.Extract
/-!
# Regions and the Boolean region builder (include/kigumi/Region.h, include/kigumi/Boolean_region_builder.h)
-/
namespace Kigumi
variable {P D : Type}

/-- `enum class Region_kind`, include/kigumi/Region.h:15-19. -/
inductive Kind where
  | empty | full | boundaryDefined
  deriving DecidableEq, Repr

/-- `class Region`: kind and boundary, Region.h:96-97. -/
structure Region (P D : Type) where
  kind : Kind
  boundary : Soup P D
  deriving DecidableEq, Repr

namespace Region
/-- `Region::empty()`, Region.h:79 (and the default constructor, 48, 96). -/
def emptyRegion : Region P D := ⟨.empty, Soup.empty⟩
/-- `Region::full()`, Region.h:81. -/
def fullRegion : Region P D := ⟨.full, Soup.empty⟩
/-- `explicit Region(Triangle_soup)`, Region.h:50-55: throws if there are no faces. -/
def ofSoup (s : Soup P D) : Outcome (Region P D) :=
  if s.faces.length = 0 then .exn "region boundary must not be empty" else .ok ⟨.boundaryDefined, s⟩
/-- `is_empty`, Region.h:83. -/
def isEmpty (r : Region P D) : Bool := r.kind == .empty
/-- `is_full`, Region.h:87. -/
def isFull (r : Region P D) : Bool := r.kind == .full
/-- `is_empty_or_full`, Region.h:85. -/
def isEmptyOrFull (r : Region P D) : Bool := r.isEmpty || r.isFull
end Region

/-- `Boolean_region_builder`: kinds of the operands and mixed soup, Boolean_region_builder.h:172-175
(warnings are modelled in Model/Mix). -/
structure Builder (P D : Type) where
  firstKind : Kind
  secondKind : Kind
  m : Soup P (MixedData D)

/-- The mixed soup built when exactly one operand is empty or full, Boolean_region_builder.h:38-72.  Faces are
concatenated without index offset, as in the code. `.data` is read with `at` for every face. -/
def concatMixed (a b : Region P D) : Outcome (Soup P (MixedData D)) := do
  let tags : Tag × Tag :=
    if a.isEmpty || b.isFull then (.interior, .exterior) else (.exterior, .interior)
  let da ← (List.range a.boundary.faces.length).mapM fun fi => do
    let d ← Outcome.at! a.boundary.data fi
    pure (⟨true, tags.1, d⟩ : MixedData D)
  let db ← (List.range b.boundary.faces.length).mapM fun fi => do
    let d ← Outcome.at! b.boundary.data fi
    pure (⟨false, tags.2, d⟩ : MixedData D)
  pure ⟨a.boundary.points ++ b.boundary.points, a.boundary.faces ++ b.boundary.faces, da ++ db⟩

/-- Constructor of `Boolean_region_builder`, Boolean_region_builder.h:30-76. `mix` stands for `Mix{}` (line 75). -/
def Builder.make (mix : Soup P D → Soup P D → Outcome (Soup P (MixedData D))) (a b : Region P D) :
    Outcome (Builder P D) :=
  if a.isEmptyOrFull && b.isEmptyOrFull then
    pure ⟨a.kind, b.kind, Soup.empty⟩
  else if a.isEmptyOrFull || b.isEmptyOrFull then do
    let m ← concatMixed a b
    pure ⟨a.kind, b.kind, m⟩
  else do
    let m ← mix a.boundary b.boundary
    pure ⟨a.kind, b.kind, m⟩

/-- `cond ? Region::full() : Region::empty()`. -/
def fullOrEmpty (c : Bool) : Region P D := if c then Region.fullRegion else Region.emptyRegion

/-- `Boolean_region_builder::operator()`, Boolean_region_builder.h:78-128. -/
def Builder.run (bb : Builder P D) (op : Op) (preferFirst : Bool) : Outcome (Region P D) := do
  let soup ← extract bb.m op preferFirst
  if soup.faces.length ≠ 0 then
    Region.ofSoup soup
  else if bb.firstKind = .empty ∨ bb.secondKind = .empty then
    pure (fullOrEmpty (applyOp op (bb.firstKind != .empty) (bb.secondKind != .empty)))
  else if bb.firstKind = .full ∨ bb.secondKind = .full then
    pure (fullOrEmpty (applyOp op (bb.firstKind == .full) (bb.secondKind == .full)))
  else
    match op with
    | .V | .A | .B | .C | .D => pure Region.fullRegion
    | .K | .L | .M | .X | .O => pure Region.emptyRegion
    | .E | .J =>
      -- `m_.data(fi)` uses `at`; the model reads the data list, which has one record per face (Soup.WF).
      if (bb.m.data.take bb.m.faces.length).all (fun d => d.tag == .coplanar) then
        pure (fullOrEmpty (applyOp op false false))
      else if (bb.m.data.take bb.m.faces.length).all (fun d => d.tag == .opposite) then
        pure (fullOrEmpty (applyOp op false true))
      else
        .exn "input meshes are inconsistently oriented"
    | _ => .exn "input meshes are inconsistently oriented"

end Kigumi
