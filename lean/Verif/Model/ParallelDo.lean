import Verif.Model.Prelude

/-!
# Parallel loops (include/kigumi/parallel_do.h)

Both overloads of `parallel_do` as a transition system in which the scheduler picks any thread for the next step.
`body i s` stands for `body(*(first + i), local_state)` on the `i`-th element of the range; it returns the new
local state or throws.  `post g s` stands for `post(local_state)` acting on whatever the caller merges into (`g`); it
returns the new `g` and possibly an exception.  Atomic operations, the mutex and the unlocked read of `exception_ptr`
are single steps (sequential consistency); that the unlocked read can race with a locked write is the subject of C66.
Not modelled: failure to start a thread, throwing copy constructors of the state.
-/
namespace Kigumi.ParallelDo
open Kigumi

variable {S E G : Type}

/-- What a call of `parallel_do` is given: number of elements, initial state, body, whether there is a `post`
(first overload, parallel_do.h:15-17) or not (second overload, parallel_do.h:76-77), and `post`. -/
structure Params (S E G : Type) where
  size : Nat
  init : S
  body : Nat → S → Except E S
  hasPost : Bool
  post : G → S → G × Option E

/-- Where a worker thread is (parallel_do.h:39-64 and 99-119). -/
inductive Pc (S E : Type) where
  /-- before copying the state (line 40) -/
  | start
  /-- before `next_index++` (line 44) -/
  | fetch (s : S)
  /-- before calling the body on element `i` (line 49) -/
  | run (i : Nat) (s : S)
  /-- before reading `exception_ptr` (line 51) -/
  | check (s : S)
  /-- before locking the mutex in order to call `post` (line 56) -/
  | wantPost (s : S)
  /-- holding the mutex, before calling `post` (line 57) -/
  | inPost (s : S)
  /-- in the handler, before locking the mutex (line 59) -/
  | wantCatch (e : E)
  /-- in the handler, holding the mutex, before testing and setting `exception_ptr` (lines 60-62) -/
  | inCatch (e : E)
  /-- finished -/
  | done

/-- Shared variables and threads.  `log`, `owner`, `merged` and `thrown` are observations: the order in which bodies ran
(finished or threw), which thread drew which index, the order of completed `post` calls, and what was thrown. -/
structure Cfg (S E G : Type) where
  /-- `next_index` -/
  next : Nat
  /-- `exception_ptr` -/
  exc : Option E
  /-- `mutex`: the thread holding it -/
  lock : Option Nat
  /-- what `post` merges into -/
  acc : G
  pc : Nat → Pc S E
  log : List Nat
  owner : List Nat
  merged : List (Nat × S)
  thrown : List E

/-- Replace the state of one thread. -/
def upd (f : Nat → Pc S E) (t : Nat) (v : Pc S E) : Nat → Pc S E := fun k => if k = t then v else f k

/-- Just after the worker threads have been created (parallel_do.h:32-39). -/
def Cfg.initial (g : G) : Cfg S E G := ⟨0, none, none, g, fun _ => .start, [], [], [], []⟩

/-- One step of thread `t`. -/
inductive Step (P : Params S E G) (t : Nat) : Cfg S E G → Cfg S E G → Prop
  /-- `auto local_state = state;` -/
  | start {c} : c.pc t = .start → Step P t c { c with pc := upd c.pc t (.fetch P.init) }
  /-- `auto index = next_index++`, index in range -/
  | fetch {c s} : c.pc t = .fetch s → c.next < P.size →
      Step P t c { c with next := c.next + 1, owner := c.owner ++ [t], pc := upd c.pc t (.run c.next s) }
  /-- `auto index = next_index++`, index out of range: leave the loop; the first overload goes on to merge -/
  | stop {c s} : c.pc t = .fetch s → P.size ≤ c.next →
      Step P t c { c with next := c.next + 1, pc := upd c.pc t (if P.hasPost then .wantPost s else .done) }
  /-- the body returns -/
  | runOk {c i s s'} : c.pc t = .run i s → P.body i s = .ok s' →
      Step P t c { c with log := c.log ++ [i], pc := upd c.pc t (.check s') }
  /-- the body throws -/
  | runThrow {c i s e} : c.pc t = .run i s → P.body i s = .error e →
      Step P t c { c with log := c.log ++ [i], thrown := c.thrown ++ [e], pc := upd c.pc t (.wantCatch e) }
  /-- `if (exception_ptr) return;` not taken -/
  | checkGo {c s} : c.pc t = .check s → c.exc = none → Step P t c { c with pc := upd c.pc t (.fetch s) }
  /-- `if (exception_ptr) return;` taken -/
  | checkQuit {c s e} : c.pc t = .check s → c.exc = some e → Step P t c { c with pc := upd c.pc t .done }
  /-- `std::lock_guard lock{mutex};` before `post` -/
  | lockPost {c s} : c.pc t = .wantPost s → c.lock = none →
      Step P t c { c with lock := some t, pc := upd c.pc t (.inPost s) }
  /-- `post(local_state)` returns; the guard unlocks -/
  | postOk {c s g} : c.pc t = .inPost s → P.post c.acc s = (g, none) →
      Step P t c { c with lock := none, acc := g, merged := c.merged ++ [(t, s)], pc := upd c.pc t .done }
  /-- `post(local_state)` throws; the guard unlocks during unwinding -/
  | postThrow {c s g e} : c.pc t = .inPost s → P.post c.acc s = (g, some e) →
      Step P t c { c with lock := none, acc := g, thrown := c.thrown ++ [e], pc := upd c.pc t (.wantCatch e) }
  /-- `std::lock_guard lock{mutex};` in the handler -/
  | lockCatch {c e} : c.pc t = .wantCatch e → c.lock = none →
      Step P t c { c with lock := some t, pc := upd c.pc t (.inCatch e) }
  /-- `if (!exception_ptr) exception_ptr = std::current_exception();` and unlock -/
  | setExc {c e} : c.pc t = .inCatch e →
      Step P t c { c with lock := none, exc := some (c.exc.getD e), pc := upd c.pc t .done }

/-- Executions with `n` worker threads, any interleaving; the number counts the steps. -/
inductive Exec (P : Params S E G) (n : Nat) (g : G) : Nat → Cfg S E G → Prop
  | nil : Exec P n g 0 (Cfg.initial g)
  | snoc {k c c' t} : Exec P n g k c → t < n → Step P t c c' → Exec P n g (k + 1) c'

/-- All threads can be joined (parallel_do.h:67-69). -/
def AllDone (n : Nat) (c : Cfg S E G) : Prop := ∀ t, t < n → c.pc t = .done

/-- What the caller observes: the merge target, the elements the body was applied to (in the order in which the calls
ended), the exceptions thrown by bodies and merges, and the exception leaving `parallel_do`, if any
(`rethrow_exception`, parallel_do.h:71-73). -/
structure Result (E G : Type) where
  acc : G
  log : List Nat
  thrown : List E
  exc : Option E

/-- The loop of the single-threaded path (parallel_do.h:25-27 and 86-88). -/
def seqLoop (P : Params S E G) : List Nat → S → List Nat → Except E S × List Nat
  | [], s, log => (.ok s, log)
  | i :: is, s, log =>
    match P.body i s with
    | .ok s' => seqLoop P is s' (log ++ [i])
    | .error e => (.error e, log ++ [i])

/-- The single-threaded path (parallel_do.h:24-30 and 85-90). -/
def seqRun (P : Params S E G) (g : G) : Result E G :=
  match seqLoop P (List.range P.size) P.init [] with
  | (.ok s, log) => if P.hasPost then ⟨(P.post g s).1, log, (P.post g s).2.toList, (P.post g s).2⟩ else ⟨g, log, [], none⟩
  | (.error e, log) => ⟨g, log, [e], some e⟩

/-- Number of worker threads: first overload `min(current().num_threads(), size)` (parallel_do.h:23), second overload
`clamp(hardware_concurrency(), 1, size)` (parallel_do.h:83-84). -/
def numThreads (hasPost : Bool) (configured hardware size : Nat) : Nat :=
  if hasPost then min configured size else min (max hardware 1) size

/-- `r` is a possible result of `parallel_do`. -/
def Returns (P : Params S E G) (configured hardware : Nat) (g : G) (r : Result E G) : Prop :=
  if P.size = 0 then r = ⟨g, [], [], none⟩
  else
    let n := numThreads P.hasPost configured hardware P.size
    if n = 1 then r = seqRun P g
    else ∃ k c, Exec P n g k c ∧ AllDone n c ∧ r = ⟨c.acc, c.log, c.thrown, c.exc⟩

end Kigumi.ParallelDo
