import Verif.Model.Prelude

/-!
# Parallel sort (include/kigumi/parallel_sort.h)

The worker threads as a transition system.  A thread passes through phases: phase 0 sorts its own part, phase `k + 1` is the
`k`-th iteration of the `while` loop.  `std::barrier` lets a thread begin phase `k` (`k ≥ 1`) only when all threads have finished
phase `k - 1`.  The work of one thread in one phase is one step (the ranges worked on between two barriers are disjoint: proved as C16_disjoint).
`std::sort` and `std::inplace_merge` are modelled by their contracts: any rearrangement that is sorted; merging unsorted ranges is
undefined behaviour.
-/
namespace Kigumi.ParallelSort
open Kigumi

variable {α : Type}

/-- Sorted with respect to `lt` (the comparator `comp`), as `std::is_sorted` would say for a strict weak order. -/
def Sorted (lt : α → α → Prop) (l : List α) : Prop := l.Pairwise (fun x y => ¬ lt y x)

/-- `partitions.at(t)` (parallel_sort.h:31-36), as offset from `first`. -/
def part (size n t : Nat) : Nat := if t < n then t * (size / n) else size

/-- Number of threads (parallel_sort.h:21). -/
def numThreads (configured size : Nat) : Nat := min configured ((size + 1023) / 1024)

/-- Contents of the range, number of finished phases of each thread, and whether undefined behaviour has occurred. -/
structure Cfg (α : Type) where
  arr : List α
  phase : Nat → Nat
  ub : Bool

/-- A thread is finished when the loop condition `sorted_distance < num_threads` fails (parallel_sort.h:48); in phase
`k ≥ 1`, `sorted_distance` is `2^(k-1)`. -/
def Finished (n k : Nat) : Prop := 1 ≤ k ∧ n ≤ 2 ^ (k - 1)

/-- The barrier: before phase `k ≥ 1` all threads have finished phase `k - 1` (parallel_sort.h:49). -/
def Barrier (n : Nat) (c : Cfg α) (k : Nat) : Prop := ∀ u, u < n → k ≤ c.phase u

def advance (f : Nat → Nat) (t : Nat) : Nat → Nat := fun u => if u = t then f u + 1 else f u

/-- One phase of thread `t`. -/
inductive Step (lt : α → α → Prop) (size n t : Nat) : Cfg α → Cfg α → Prop
  /-- `std::sort` on the thread's own part (parallel_sort.h:41-45) -/
  | sort {c A B C B'} : c.phase t = 0 → c.arr = A ++ B ++ C → A.length = part size n t →
      (A ++ B).length = part size n (t + 1) → B'.Perm B → Sorted lt B' →
      Step lt size n t c ⟨A ++ B' ++ C, advance c.phase t, c.ub⟩
  /-- an iteration with nothing to merge for this thread (parallel_sort.h:49-50, 56) -/
  | skip {c k} : c.phase t = k + 1 → 2 ^ k < n → Barrier n c (k + 1) → t % (2 * 2 ^ k) ≠ 0 →
      Step lt size n t c ⟨c.arr, advance c.phase t, c.ub⟩
  /-- `std::inplace_merge(first, middle, last, comp)` (parallel_sort.h:50-56), ranges sorted -/
  | merge {c k A B B2 C B'} : c.phase t = k + 1 → 2 ^ k < n → Barrier n c (k + 1) → t % (2 * 2 ^ k) = 0 →
      c.arr = A ++ (B ++ B2) ++ C → A.length = part size n t → (A ++ B).length = part size n (min (t + 2 ^ k) n) →
      (A ++ (B ++ B2)).length = part size n (min (t + 2 * 2 ^ k) n) → Sorted lt B → Sorted lt B2 →
      B'.Perm (B ++ B2) → Sorted lt B' →
      Step lt size n t c ⟨A ++ B' ++ C, advance c.phase t, c.ub⟩
  /-- the same with an unsorted range: undefined behaviour -/
  | mergeBad {c k A B B2 C} : c.phase t = k + 1 → 2 ^ k < n → Barrier n c (k + 1) → t % (2 * 2 ^ k) = 0 →
      c.arr = A ++ (B ++ B2) ++ C → A.length = part size n t → (A ++ B).length = part size n (min (t + 2 ^ k) n) →
      (A ++ (B ++ B2)).length = part size n (min (t + 2 * 2 ^ k) n) → ¬ (Sorted lt B ∧ Sorted lt B2) →
      Step lt size n t c ⟨c.arr, advance c.phase t, true⟩

/-- Executions, any interleaving; the number counts the steps. -/
inductive Exec (lt : α → α → Prop) (n : Nat) (xs : List α) : Nat → Cfg α → Prop
  | nil : Exec lt n xs 0 ⟨xs, fun _ => 0, false⟩
  | snoc {k c c' t} : Exec lt n xs k c → t < n → Step lt xs.length n t c c' → Exec lt n xs (k + 1) c'

def AllDone (n : Nat) (c : Cfg α) : Prop := ∀ t, t < n → Finished n (c.phase t)

/-- `ys` is a possible content of the range after `parallel_sort` on `xs` (parallel_sort.h:15-64); `none` is undefined behaviour. -/
def Returns (lt : α → α → Prop) (configured : Nat) (xs : List α) (r : Option (List α)) : Prop :=
  if xs.length = 0 then r = some xs
  else
    let n := numThreads configured xs.length
    if n = 1 then ∃ ys, r = some ys ∧ ys.Perm xs ∧ Sorted lt ys
    else ∃ k c, Exec lt n xs k c ∧ AllDone n c ∧ r = if c.ub then none else some c.arr

end Kigumi.ParallelSort
