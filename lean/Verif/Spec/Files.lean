import Verif.Model.Program
import Verif.Spec.Solid
import Verif.Spec.Cli

/-!
# What `.kigumi` files hold

A file is a sequence of bytes; the set that it holds is told by those who read it.
-/
namespace Kigumi.Spec.Files
open Kigumi Outcome
open Kigumi.IO (Host Numbers RawRegion Byte nullCodec)
open Kigumi.Geo (P3)
open Kigumi.Spec.Side (Denotes)
open Kigumi.Program (places regionOf)

/-- Reading the bytes on some host into a new region, whatever the buffer of the thread holds, may succeed with the region `raw`. -/
def Accepted (N : Numbers) (c : List Byte) (raw : RawRegion Unit) : Prop := ∃ (h : Host) (buf : List Byte) (st : IO.St), IO.readRegion h N nullCodec .fresh ⟨⟨c, false, false⟩, buf⟩ = ok (true, raw, st)

/-- Reading the bytes succeeds on every host. -/
def Readable (N : Numbers) (c : List Byte) : Prop := ∀ (h : Host) (buf : List Byte), ∃ raw st, IO.readRegion h N nullCodec .fresh ⟨⟨c, false, false⟩, buf⟩ = ok (true, raw, st)

/-- All who succeed in reading the bytes get a region that is the set `A`, apart from points of `S`. -/
def Says (N : Numbers) (c : List Byte) (A S : P3 → Prop) : Prop := ∀ raw, Accepted N c raw → raw.kind ≤ 2 ∧ Denotes (places (regionOf raw)) A S

/-- The bytes are a file of a region that is the set `A`, apart from points of `S`. -/
def HoldsSet (N : Numbers) (c : List Byte) (A S : P3 → Prop) : Prop := Readable N c ∧ Says N c A S

/-- The set of the points for which `f` is true, where its arguments say whether the point is in `A` and in `B`. -/
def Combined (f : Bool → Bool → Bool) (A B : P3 → Prop) (x : P3) : Prop := ∃ a b, (a = true ↔ A x) ∧ (b = true ↔ B x) ∧ f a b = true

end Kigumi.Spec.Files
