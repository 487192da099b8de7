import Verif.Model.Prelude

/-!
# Scoped options (include/kigumi/Context.h, include/kigumi/threading.h)

`Context<Options>::current_` is a thread-local variable; a context object stores a backup.  One thread is modelled: what it does with
contexts is a list of events.  Objects have automatic storage (they are neither copyable nor movable), so the one
destroyed is always the youngest live one, also when a scope is left by an exception.
-/
namespace Kigumi.Context
open Kigumi Outcome

/-- What a thread does with contexts. -/
inductive Event (O : Type) where
  | construct (o : O)
  | destroy
  | read
  deriving DecidableEq, Repr

/-- `current_` (Context.h:20) and the `bak_` members (Context.h:21) of the live objects, youngest first. -/
structure State (O : Type) where
  current : O
  baks : List O

/-- One event; reading returns what `current()` returns.
Constructor (Context.h:8, 21): the member initialiser `bak_{current_}` runs before the body `current_ = options`.
Destructor (Context.h:10): `current_ = bak_`.  Destroying without a live object cannot be written in C++: `ub`. -/
def step {O : Type} (s : State O) : Event O → Outcome (State O × List O)
  | .construct o => ok (⟨o, s.current :: s.baks⟩, [])
  | .destroy => match s.baks with
    | [] => ub "no live object"
    | b :: bs => ok (⟨b, bs⟩, [])
  | .read => ok (s, [s.current])

/-- A list of events; returns the values read. -/
def run {O : Type} (s : State O) : List (Event O) → Outcome (State O × List O)
  | [] => ok (s, [])
  | e :: es => do
    let (s, r) ← step s e
    let (s, rs) ← run s es
    ok (s, r ++ rs)

/-- `Threading_options::num_threads_` default (threading.h:21). -/
def defaultThreads (hardware : Nat) : Nat := max 1 hardware

/-- `Threading_options::set_num_threads` (threading.h:14-18): `std::clamp(n, 1, max(1, hardware_concurrency()))`. -/
def clampThreads (hardware n : Nat) : Nat :=
  let lo := 1
  let hi := max 1 hardware
  if n < lo then lo else if hi < n then hi else n

/-- Number of threads used by `parallel_sort` (parallel_sort.h:21). -/
def sortThreads (configured size : Nat) : Nat := min configured ((size + 1023) / 1024)

/-- `concurrency_depth_limit_` (AABB_tree/AABB_tree.h:187-188). -/
def depthLimit (configured : Nat) : Nat := Nat.log2 configured

/-- Number of builder calls that can be running (not waiting in `join`) at the same time below a call of `build` with `m`
leaves at depth `d` (AABB_tree/AABB_tree.h:66-121): only calls with at least four leaves above the depth limit start two threads and wait for them. -/
def builders (limit : Nat) : Nat → Nat → Nat → Nat
  | 0, _, _ => 1
  | fuel + 1, d, m =>
    if m ≤ 3 then 1
    else if d < limit then builders limit fuel (d + 1) (m / 2) + builders limit fuel (d + 1) (m - m / 2)
    else 1

end Kigumi.Context
