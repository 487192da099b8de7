import Verif.Model.BinaryIO

/-!
# The files in the binary format of regions

Which sequences of bytes are a region, said without reading: the parts of the file one after another.  From the model, only the types of the values are used.
-/
namespace Kigumi.BinSpec
open Kigumi IO

abbrev Bytes := List (Fin 256)

/-- The number whose digits to the base 256 are these, the most significant first. -/
def big (bs : Bytes) : Nat := bs.foldl (fun v b => 256 * v + b.val) 0
/-- The number whose digits to the base 256 are these, the least significant first. -/
def little (bs : Bytes) : Nat := big bs.reverse

/-- Four bytes, the least significant first, that are a number below `2 ^ 31`. -/
def IsCount (bs : Bytes) (n : Nat) : Prop := bs.length = 4 ∧ little bs = n ∧ n < 2 ^ 31

/-- Eight bytes, the least significant first: the bit pattern of a double. -/
def IsDouble (bs : Bytes) (n : Nat) : Prop := bs.length = 8 ∧ little bs = n

/-- A count and that many bytes, the most significant first. -/
def IsNatural (bs : Bytes) (n : Nat) : Prop := ∃ c ds, bs = c ++ ds ∧ IsCount c ds.length ∧ big ds = n

/-- A sign (any byte but 0 is minus), a numerator and a denominator, which is not 0. -/
def IsRational (bs : Bytes) (q : ℚ) : Prop :=
  ∃ s ns ds n d, bs = s :: (ns ++ ds) ∧ IsNatural ns n ∧ IsNatural ds d ∧ d ≠ 0 ∧ q = if s = 0 then (n : ℚ) / (d : ℚ) else -((n : ℚ) / (d : ℚ))

/-- A byte 0 and three doubles, or another byte and three rational numbers. -/
def IsPoint (N : Numbers) (bs : Bytes) (p : Pt) : Prop :=
  (∃ xs ys zs x y z, bs = 0 :: (xs ++ (ys ++ zs)) ∧ IsDouble xs x ∧ IsDouble ys y ∧ IsDouble zs z ∧ p = ⟨⟨N.val x, some x⟩, ⟨N.val y, some y⟩, ⟨N.val z, some z⟩⟩) ∨
    ∃ s xs ys zs x y z, bs = s :: (xs ++ (ys ++ zs)) ∧ s ≠ 0 ∧ IsRational xs x ∧ IsRational ys y ∧ IsRational zs z ∧ p = ⟨⟨x, N.approx x⟩, ⟨y, N.approx y⟩, ⟨z, N.approx z⟩⟩

/-- Three counts and face data. -/
def IsFace {D : Type} (E : Bytes → D → Prop) (bs : Bytes) (f : Tri Nat × D) : Prop :=
  ∃ as cs es ds, bs = as ++ (cs ++ (es ++ ds)) ∧ IsCount as f.1.a ∧ IsCount cs f.1.b ∧ IsCount es f.1.c ∧ E ds f.2

/-- One after another. -/
inductive Row {α : Type} (R : Bytes → α → Prop) : Bytes → List α → Prop
  | nil : Row R [] []
  | cons {xs ys : Bytes} {a : α} {as : List α} : R xs a → Row R ys as → Row R (xs ++ ys) (a :: as)

/-- The kind, the number of vertices, the number of faces, the vertices, the faces. -/
def IsRegion {D : Type} (N : Numbers) (E : Bytes → D → Prop) (bs : Bytes) (r : RawRegion D) : Prop :=
  ∃ (k : Fin 256) (nv nf ps fs : Bytes) (faces : List (Tri Nat × D)), bs = k :: (nv ++ (nf ++ (ps ++ fs))) ∧ k.val = r.kind ∧
    IsCount nv r.boundary.points.length ∧ IsCount nf faces.length ∧ Row (IsPoint N) ps r.boundary.points ∧ Row (IsFace E) fs faces ∧
      r.boundary.faces = faces.map Prod.fst ∧ r.boundary.data = faces.map Prod.snd

/-- Nothing is stored. -/
def IsNothing (bs : Bytes) (_ : Unit) : Prop := bs = []

/-- An integer with this number of bytes, the least significant first, in two's complement if it is signed. -/
def IsInteger (signed : Bool) (n : Nat) (bs : Bytes) (v : Int) : Prop :=
  bs.length = n ∧ v % 2 ^ (8 * n) = little bs ∧ if signed then -(2 : Int) ^ (8 * n - 1) ≤ v ∧ v < (2 : Int) ^ (8 * n - 1) else 0 ≤ v ∧ v < (2 : Int) ^ (8 * n)

end Kigumi.BinSpec
