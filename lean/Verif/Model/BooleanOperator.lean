import Verif.Model.Prelude
/-!
# Boolean operators and face selection masks (include/kigumi/Boolean_operator.h)
-/
namespace Kigumi

/-- `enum class Boolean_operator`, include/kigumi/Boolean_operator.h:33-57. -/
inductive Op where
  | V | A | B | C | D | E | F | G | H | I | J | K | L | M | X | O
  deriving DecidableEq, Repr

/-- `Boolean_operator::UNION/SYMMETRIC_DIFFERENCE/INTERSECTION/DIFFERENCE`, Boolean_operator.h:53-56. -/
def Op.union : Op := .A
def Op.symmetricDifference : Op := .J
def Op.intersection : Op := .K
def Op.difference : Op := .L

/-- `enum class Mask : uint8_t` with bits A=1, B=2, A_INV=4, B_INV=8, Boolean_operator.h:59-65.
`operator|` and `operator&` (Boolean_operator.h:67-73) are the bitwise operations on the underlying integer. -/
abbrev Mask := Nat
namespace Mask
def NONE : Mask := 0
def A : Mask := 1
def B : Mask := 2
def A_INV : Mask := 4
def B_INV : Mask := 8
end Mask

/-- `union_mask`, Boolean_operator.h:75-98. -/
def unionMask : Op → Mask
  | .I | .L => Mask.A
  | .H | .M => Mask.B
  | .A | .J => Mask.A ||| Mask.B
  | .C | .F => Mask.A_INV
  | .B | .G => Mask.B_INV
  | .E | .X => Mask.A_INV ||| Mask.B_INV
  | _ => Mask.NONE

/-- `intersection_mask`, Boolean_operator.h:100-123. -/
def intersectionMask : Op → Mask
  | .B | .I => Mask.A
  | .C | .H => Mask.B
  | .E | .K => Mask.A ||| Mask.B
  | .F | .M => Mask.A_INV
  | .G | .L => Mask.B_INV
  | .D | .J => Mask.A_INV ||| Mask.B_INV
  | _ => Mask.NONE

/-- `coplanar_mask`, Boolean_operator.h:125-140. -/
def coplanarMask (op : Op) (preferA : Bool) : Mask :=
  match op with
  | .A | .H | .I | .K => if preferA then Mask.A else Mask.B
  | .D | .F | .G | .X => if preferA then Mask.A_INV else Mask.B_INV
  | _ => Mask.NONE

/-- `opposite_mask`, Boolean_operator.h:142-157. -/
def oppositeMask (op : Op) (preferA : Bool) : Mask :=
  match op with
  | .B | .G | .I | .L => if preferA then Mask.A else Mask.B_INV
  | .C | .F | .H | .M => if preferA then Mask.A_INV else Mask.B
  | _ => Mask.NONE

/-- `enum class Face_tag`, include/kigumi/Face_tag.h:5-11. -/
inductive Tag where
  | unknown | exterior | interior | coplanar | opposite
  deriving DecidableEq, Repr

/-- `Boolean_region_builder::apply`, include/kigumi/Boolean_region_builder.h:133-170
(the `default` branch throws for values outside the enumeration, which `Op` cannot represent). -/
def applyOp (op : Op) (a b : Bool) : Bool :=
  match op with
  | .V => true
  | .A => a || b
  | .B => a || !b
  | .C => !a || b
  | .D => !a || !b
  | .E => a == b
  | .F => !a
  | .G => !b
  | .H => b
  | .I => a
  | .J => a != b
  | .K => a && b
  | .L => a && !b
  | .M => !a && b
  | .X => !a && !b
  | .O => false

end Kigumi
