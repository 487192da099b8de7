import Verif.Model.IntIO
import Verif.Model.Soup
import Mathlib.Data.Rat.Defs

/-!
# Binary files of regions (include/kigumi/io.h, Mesh_indices.h, Triangle_soup.h, Region.h, Region_io.h)

A double is its bit pattern (a number below `2 ^ 64`).  Memory exhaustion (`buf.resize` with a large count) is not modelled.
-/
namespace Kigumi.IO
open Kigumi Outcome

/-- The rational number types of the two back ends, `cpp_rational` of Boost (io.h:85-131) and `mpq_class` of GMP (io.h:139-187). -/
inductive Backend where
  | boost
  | gmp
  deriving DecidableEq, Repr

/-- The number kernel: the value of a double, and the double that the approximating interval of a rational number consists of, if it is a single point. -/
structure Numbers where
  backend : Backend
  val : Nat → ℚ
  approx : ℚ → Option Nat

/-- A lazy exact coordinate: its value, and the double that its approximating interval consists of, if it is a single point (`approx().x().is_point()`). -/
structure Num where
  value : ℚ
  dbl : Option Nat
  deriving DecidableEq, Repr

/-- `Point_3` -/
structure Pt where
  (x y z : Num)
  deriving DecidableEq, Repr

/-- `Region`: the kind as stored (any byte, Region.h:15-19, 33) and the boundary. -/
structure RawRegion (D : Type) where
  kind : Nat
  boundary : Soup Pt D
  deriving DecidableEq, Repr

/-! ## Writing -/

/-- `kigumi_write<bool>` (io.h:65-70). -/
def writeBool (h : Host) (b : Bool) : List Byte := writeInt h .uint8 (if b then 1 else 0)

/-- The bytes of the magnitude, least significant first, without leading zeros. -/
def magLoop : Nat → Nat → List Byte
  | 0, _ => []
  | fuel + 1, v => if v = 0 then [] else ⟨v % 256, Nat.mod_lt _ (by decide)⟩ :: magLoop fuel (v / 256)

/-- `export_bits(v, out, 8)` writes the magnitude, most significant byte first, and one byte for zero; `mpz_export` with these arguments writes no byte for zero. -/
def exportMag (b : Backend) (v : Nat) : List Byte :=
  if v = 0 then (match b with
    | .boost => [0]
    | .gmp => [])
  else (magLoop v v).reverse

/-- A count and that many bytes (io.h:93-95, 98-100, 149-151, 154-156). -/
def writeBlock (h : Host) (bs : List Byte) : Outcome (List Byte) :=
  (kigumiWrite h .int32 .size bs.length).bind fun c => ok (c ++ bs)

/-- `Write<cpp_rational>` (io.h:85-102), `Write<mpq_class>` (io.h:139-158). -/
def writeRat (h : Host) (b : Backend) (q : ℚ) : Outcome (List Byte) :=
  (writeBlock h (exportMag b q.num.natAbs)).bind fun n => (writeBlock h (exportMag b q.den)).bind fun d =>
    ok (writeBool h (decide (q < 0)) ++ n ++ d)

/-- `kigumi_write<double>` (io.h:22-31) for a bit pattern. -/
def writeDouble (h : Host) (b : Nat) : List Byte := writeInt h ⟨false, 8⟩ b

/-- One vertex (Triangle_soup.h:158-172). -/
def writeVertex (h : Host) (N : Numbers) (p : Pt) : Outcome (List Byte) :=
  match p.x.dbl, p.y.dbl, p.z.dbl with
  | some x, some y, some z => ok (writeBool h false ++ writeDouble h x ++ writeDouble h y ++ writeDouble h z)
  | _, _, _ => (writeRat h N.backend p.x.value).bind fun x => (writeRat h N.backend p.y.value).bind fun y => (writeRat h N.backend p.z.value).bind fun z =>
      ok (writeBool h true ++ x ++ y ++ z)

/-- How face data are stored (`Write<FaceData>`, `Read<FaceData>`); the state of a reader is defined below. -/
structure St where
  s : In
  /-- the thread-local buffer of the reader of rational numbers (io.h:107, 163) -/
  buf : List Byte
  deriving DecidableEq, Repr

/-- A function that reads from a stream. -/
def Rd (α : Type) : Type := St → Outcome (α × St)

def Rd.bind {α β : Type} (r : Rd α) (f : α → Rd β) : Rd β := fun st => (r st).bind fun (a, st) => f a st
def Rd.ret {α : Type} (a : α) : Rd α := fun st => ok (a, st)

/-- `Write<FaceData>`, `Read<FaceData>` and `FaceData{}`. -/
structure Codec (D : Type) where
  enc : D → List Byte
  dec : Rd D
  dflt : D

/-- `Write<Vertex_index>` (Mesh_indices.h:69-74). -/
def writeIndex (h : Host) (i : Nat) : Outcome (List Byte) := kigumiWrite h .int32 .size i

/-- One face with its data (Triangle_soup.h:175-180). -/
def writeFace {D : Type} (h : Host) (C : Codec D) (f : Tri Nat) (d : D) : Outcome (List Byte) :=
  (writeIndex h f.a).bind fun a => (writeIndex h f.b).bind fun b => (writeIndex h f.c).bind fun c => ok (a ++ b ++ c ++ C.enc d)

def writeVertices (h : Host) (N : Numbers) : List Pt → Outcome (List Byte)
  | [] => ok []
  | p :: ps => (writeVertex h N p).bind fun a => (writeVertices h N ps).bind fun b => ok (a ++ b)

/-- The faces with numbers from `i` (Triangle_soup.h:174-181). -/
def writeFaces {D : Type} (h : Host) (C : Codec D) (data : List D) : Nat → List (Tri Nat) → Outcome (List Byte)
  | _, [] => ok []
  | i, f :: fs => (at! data i).bind fun d => (writeFace h C f d).bind fun a => (writeFaces h C data (i + 1) fs).bind fun b => ok (a ++ b)

/-- `Write<Triangle_soup>` (Triangle_soup.h:152-183). -/
def writeSoup {D : Type} (h : Host) (N : Numbers) (C : Codec D) (t : Soup Pt D) : Outcome (List Byte) :=
  (kigumiWrite h .int32 .size t.points.length).bind fun nv => (kigumiWrite h .int32 .size t.faces.length).bind fun nf =>
    (writeVertices h N t.points).bind fun vs => (writeFaces h C t.data 0 t.faces).bind fun fs => ok (nv ++ nf ++ vs ++ fs)

/-- `Write<Region>` (Region.h:100-106, 21-26) and `write_kigumi_region` on a good stream that accepts everything (Region_io.h:31-38). -/
def writeRegion {D : Type} (h : Host) (N : Numbers) (C : Codec D) (r : RawRegion D) : Outcome (List Byte) :=
  (writeSoup h N C r.boundary).bind fun b => ok (writeInt h .uint8 r.kind ++ b)

/-! ## Reading -/

/-- A value of an integer type, read to a variable with value 0. -/
def rInt (h : Host) (u t : IntTy) : Rd Int := fun st => (kigumiRead h u t 0 st.s).bind fun (s, v) => ok (v, { st with s := s })

/-- `kigumi_read<std::int32_t>` to a `std::size_t` with value 0. -/
def rSize (h : Host) : Rd Nat := (rInt h .int32 .size).bind fun v => Rd.ret v.toNat

/-- `kigumi_read<bool>` (io.h:72-79) to a variable with value false. -/
def rBool (h : Host) : Rd Bool := (rInt h .uint8 .uint8).bind fun v => Rd.ret (decide (v ≠ 0))

def rDouble (h : Host) : Rd Nat := (rInt h ⟨false, 8⟩ ⟨false, 8⟩).bind fun v => Rd.ret v.toNat

/-- `vector::resize` -/
def resize (buf : List Byte) (n : Nat) : List Byte := buf.take n ++ List.replicate (n - buf.length) 0

/-- A count and that many bytes, in the buffer (io.h:116-119, 121-124, 172-175, 177-180): the number with these bytes, most significant first.  If the stream ends too early,
the end of the buffer keeps its old content. -/
def rBlock (h : Host) : Rd Nat := (rSize h).bind fun count => fun st =>
  let (s, buf) := st.s.read (resize st.buf count)
  ok (leVal buf.reverse, ⟨s, buf⟩)

/-- `Read<cpp_rational>` (io.h:104-131), `Read<mpq_class>` (io.h:160-187): a zero denominator throws with Boost and raises a signal with GMP. -/
def rRat (h : Host) (b : Backend) : Rd ℚ := (rBool h).bind fun neg => (rBlock h).bind fun num => (rBlock h).bind fun den => fun st =>
  if den = 0 then (match b with
    | .boost => exn "division by zero"
    | .gmp => ub "division by zero")
  else ok (if neg then -((num : ℚ) / (den : ℚ)) else (num : ℚ) / (den : ℚ), st)

/-- One vertex (Triangle_soup.h:193-216). -/
def rVertex (h : Host) (N : Numbers) : Rd Pt := (rBool h).bind fun exact =>
  if !exact then (rDouble h).bind fun x => (rDouble h).bind fun y => (rDouble h).bind fun z => Rd.ret ⟨⟨N.val x, some x⟩, ⟨N.val y, some y⟩, ⟨N.val z, some z⟩⟩
  else (rRat h N.backend).bind fun x => (rRat h N.backend).bind fun y => (rRat h N.backend).bind fun z => Rd.ret ⟨⟨x, N.approx x⟩, ⟨y, N.approx y⟩, ⟨z, N.approx z⟩⟩

/-- The loop over the vertices. -/
def rVertices {D : Type} (h : Host) (N : Numbers) : Nat → Soup Pt D → Rd (Soup Pt D)
  | 0, t => Rd.ret t
  | n + 1, t => (rVertex h N).bind fun p => rVertices h N n (t.addVertex p).1

/-- `add_face` and `t.data(fi) = f_data` (Triangle_soup.h:84-88, 106, 225-226). -/
def appendFace {D : Type} (C : Codec D) (t : Soup Pt D) (f : Tri Nat) (d : D) : Outcome (Soup Pt D) :=
  if t.faces.length < (t.data ++ [C.dflt]).length then ok ⟨t.points, t.faces ++ [f], (t.data ++ [C.dflt]).set t.faces.length d⟩ else exn "out_of_range"

/-- The loop over the faces (Triangle_soup.h:218-227). -/
def rFaces {D : Type} (h : Host) (C : Codec D) : Nat → Soup Pt D → Rd (Soup Pt D)
  | 0, t => Rd.ret t
  | n + 1, t => (rSize h).bind fun a => (rSize h).bind fun b => (rSize h).bind fun c => C.dec.bind fun d => fun st =>
      (appendFace C t ⟨a, b, c⟩ d).bind fun t => rFaces h C n t st

/-- `Read<Triangle_soup>` (Triangle_soup.h:185-229): appends to the target. -/
def rSoup {D : Type} (h : Host) (N : Numbers) (C : Codec D) (t : Soup Pt D) : Rd (Soup Pt D) :=
  (rSize h).bind fun nv => (rSize h).bind fun nf => (rVertices h N nv t).bind fun t => rFaces h C nf t

/-- `Read<Region>` (Region.h:108-114, 28-35). -/
def rRegion {D : Type} (h : Host) (N : Numbers) (C : Codec D) (r : RawRegion D) : Rd (RawRegion D) :=
  (rInt h .uint8 .uint8).bind fun k => (rSoup h N C r.boundary).bind fun t => Rd.ret ⟨k.toNat, t⟩

/-- `read_kigumi_region` (Region_io.h:12-19): the value returned, the target and the rest afterwards. -/
def readRegion {D : Type} (h : Host) (N : Numbers) (C : Codec D) (target : RawRegion D) (st : St) : Outcome (Bool × RawRegion D × St) :=
  if st.s.fail then ok (false, target, st)
  else (rRegion h N C target st).bind fun (r, st) => ok (st.s.good, r, st)

/-- `Null_data` (Null_data.h:8-22): nothing is stored. -/
def nullCodec : Codec Unit := ⟨fun _ => [], Rd.ret (), ()⟩

/-- Integers as face data (io.h:22-41). -/
def intCodec (h : Host) (t : IntTy) : Codec Int := ⟨fun v => writeInt h t v, rInt h t t, 0⟩

/-- `Region::empty()`, the default (Region.h:48, 79, 94-96). -/
def RawRegion.fresh {D : Type} : RawRegion D := ⟨0, Soup.empty⟩

end Kigumi.IO
