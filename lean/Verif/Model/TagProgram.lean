import Verif.Model.ClassifyGlobally

/-!
# Programs that read and write face tags, run by several threads

The bodies of the parallel loop of the local classification (Mix.h:59-66) share the face tags.  A body is represented by the tree of
its tag accesses: every evaluation of `data.tag` is one `read`, every assignment one `write`.  Bodies interleave at every access
(sequential consistency; C67 shows that the C++ code does not synchronise these accesses).
-/
namespace Kigumi.TagProg
open Kigumi

/-- A program: returns warnings, throws, exhausts the bound of a loop (never happens, see the theorems), reads a tag, or writes a tag. -/
inductive Prog where
  | ret (w : Global.Warnings)
  | fail
  | diverge
  | read (f : Nat) (k : Tag → Prog)
  | write (f : Nat) (t : Tag) (k : Prog)

/-- All tags and what each activity has still to do. -/
structure Cfg where
  tags : Nat → Tag
  prog : Nat → Prog

/-- One access by activity `i`. -/
inductive Step (i : Nat) : Cfg → Cfg → Prop
  | read {c f k} : c.prog i = .read f k → Step i c { c with prog := Flood.set c.prog i (k (c.tags f)) }
  | write {c f t k} : c.prog i = .write f t k → Step i c ⟨Flood.set c.tags f t, Flood.set c.prog i k⟩

/-- Executions: any interleaving. -/
inductive Exec (c0 : Cfg) : Cfg → Prop
  | init : Exec c0 c0
  | step {c c' i} : Exec c0 c → Step i c c' → Exec c0 c'

/-- Running one program alone. -/
def Prog.run : Prog → (Nat → Tag) → Option ((Nat → Tag) × Global.Warnings)
  | .ret w, tags => some (tags, w)
  | .fail, _ => none
  | .diverge, _ => none
  | .read f k, tags => (k (tags f)).run tags
  | .write f t k, tags => k.run (Flood.set tags f t)

/-- The accesses an activity performs next: the face, and whether it is written. -/
def Prog.next : Prog → Option (Nat × Bool)
  | .read f _ => some (f, false)
  | .write f _ _ => some (f, true)
  | _ => none

/-- Two different activities are about to access the same tag and at least one of them writes it. -/
def Race (c : Cfg) : Prop := ∃ i j f b, i ≠ j ∧ (c.prog i).next = some (f, true) ∧ (c.prog j).next = some (f, b)

end Kigumi.TagProg
