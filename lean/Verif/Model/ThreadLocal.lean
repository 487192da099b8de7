import Verif.Model.ParallelDo

/-!
# Thread-local intersection objects (include/kigumi/Corefine.h:67, include/kigumi/Find_defects.h:305)

`thread_local Face_face_intersection face_face_intersection{points_};` inside the body of a stateful `parallel_do`: the object is created when a thread first executes the
declaration and lives as long as the thread; it keeps a reference to the points of the operation that was running then (Face_face_intersection.h:27, 337).
The single-threaded path of `parallel_do` (parallel_do.h:24-30) runs the bodies on the calling thread, the other path on new threads that end with the loop (parallel_do.h:37-69).

A history is a sequence of operations on one calling thread, all using the same declaration (one instantiation of the template).  Operation number `k` has its own points, which live until it ends.
-/
namespace Kigumi.ThreadLocal
open Kigumi Outcome

/-- One operation: the number of pairs (or faces) in its loop and the number of threads configured. -/
structure Op where
  size : Nat
  configured : Nat
  deriving DecidableEq, Repr

/-- Is the loop run on the calling thread? -/
def onCaller (o : Op) : Bool := ParallelDo.numThreads true o.configured 0 o.size == 1

/-- One use of the object by a thread during operation `now`: `bound` is the operation whose points the thread's object refers to, if it exists.  The points of an earlier operation are gone. -/
def use (now : Nat) (bound : Option Nat) : Outcome (Option Nat) :=
  match bound with
  | none => ok (some now)
  | some k => if k = now then ok (some k) else ub "dangling reference to the points of an earlier operation"

/-- `n` bodies on the same thread. -/
def uses (now : Nat) : Nat → Option Nat → Outcome (Option Nat)
  | 0, bound => ok bound
  | n + 1, bound => do
    let bound ← use now bound
    uses now n bound

/-- A run of operation number `now`: the state of the calling thread afterwards.  On the other path every worker starts without an object; `split` says how many bodies each worker runs. -/
inductive Run (now : Nat) (o : Op) (bound : Option Nat) : Outcome (Option Nat) → Prop
  | empty : o.size = 0 → Run now o bound (ok bound)
  | caller : o.size ≠ 0 → onCaller o = true → Run now o bound (uses now o.size bound)
  | workers (split : List Nat) : o.size ≠ 0 → onCaller o = false → split.sum = o.size →
      Run now o bound (split.foldl (fun r n => r.bind (fun _ => uses now n none)) (ok none) |>.bind (fun _ => ok bound))

/-- Results of a history, operations numbered from `now`. -/
inductive History : Nat → List Op → Option Nat → Outcome Unit → Prop
  | nil {now bound} : History now [] bound (ok ())
  | ub {now o os bound w} : Run now o bound (.ub w) → History now (o :: os) bound (.ub w)
  | cons {now o os bound bound' r} : Run now o bound (ok bound') → History (now + 1) os bound' r → History now (o :: os) bound r

end Kigumi.ThreadLocal
