import Verif.Model.BooleanOperator

/-!
# Tag propagation (include/kigumi/Propagate_face_tags.h), possibly several at the same time

`Propagate_face_tags::operator()` is a breadth-first flood.  The global classification runs one flood per representative face
from several threads on the same mesh (Classify_faces_globally.h:34-51), so the model has one activity per seed and lets the
activities interleave at every access to a tag.  A single call of `Propagate_face_tags` is the case of one seed.

Simplifications: neighbour lists are given by `nbr` (what the range-for over `faces_around_face` enumerates, Model/Mesh; it does not depend on tags);
reading a tag and writing it in the same iteration is one step (two steps differ only if another thread writes the same tag in between, which the
race-freedom theorem excludes).
-/
namespace Kigumi.Flood
open Kigumi

/-- What is fixed during the floods: `faces_around_face` and the tag to spread from each seed. -/
structure Params where
  nbr : Nat → List Nat
  tag : Nat → Tag

/-- State of one activity: not started; inside the loop (neighbours of the current face still to be visited, and `queue_`); finished. -/
inductive Phase where
  | ready
  | running (pending queue : List Nat)
  | done
  deriving DecidableEq, Repr

/-- All tags, the activities, and for each activity whether it has raised its warning. -/
structure Cfg where
  tags : Nat → Tag
  phase : Nat → Phase
  warn : Nat → Bool

def set {α : Type} (f : Nat → α) (i : Nat) (x : α) : Nat → α := fun j => if j = i then x else f j

/-- One step of the activity with seed `r`. -/
inductive Step (P : Params) (r : Nat) : Cfg → Cfg → Prop
  /-- `f_src.tag = ...` (Classify_faces_globally.h:48; for a call from the local classification the seed already has the tag), then `queue_.push(seed)`
  (Propagate_face_tags.h:25) -/
  | start {c} : c.phase r = .ready →
      Step P r c { c with tags := set c.tags r (P.tag r), phase := set c.phase r (.running [] [r]) }
  /-- `queue_.front(); queue_.pop();` and enter the range-for (Propagate_face_tags.h:26-30) -/
  | pop {c f q} : c.phase r = .running [] (f :: q) →
      Step P r c { c with phase := set c.phase r (.running (P.nbr f) q) }
  /-- the neighbour is unclassified (Propagate_face_tags.h:31-34) -/
  | spread {c g p q} : c.phase r = .running (g :: p) q → c.tags g = .unknown →
      Step P r c { c with tags := set c.tags g (P.tag r), phase := set c.phase r (.running p (q ++ [g])) }
  /-- the neighbour has another tag (Propagate_face_tags.h:35-41) -/
  | differ {c g p q} : c.phase r = .running (g :: p) q → c.tags g ≠ .unknown → c.tags g ≠ P.tag r →
      Step P r c { c with phase := set c.phase r (.running p q), warn := set c.warn r true }
  /-- the neighbour has the same tag -/
  | same {c g p q} : c.phase r = .running (g :: p) q → c.tags g ≠ .unknown → c.tags g = P.tag r →
      Step P r c { c with phase := set c.phase r (.running p q) }
  /-- the queue is empty -/
  | finish {c} : c.phase r = .running [] [] → Step P r c { c with phase := set c.phase r .done }

/-- Executions of the activities `R` in `k` steps from a tagging. -/
inductive Exec (P : Params) (R : List Nat) (tags0 : Nat → Tag) : Nat → Cfg → Prop
  | init : Exec P R tags0 0 ⟨tags0, fun _ => .ready, fun _ => false⟩
  | step {k c c' r} : Exec P R tags0 k c → r ∈ R → Step P r c c' → Exec P R tags0 (k + 1) c'

/-- All activities have finished. -/
def AllDone (R : List Nat) (c : Cfg) : Prop := ∀ r ∈ R, c.phase r = .done

end Kigumi.Flood
