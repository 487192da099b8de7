import Verif.Proofs.ParallelSort

/-! # C16: the parallel sort sorts -/
namespace Kigumi.Spec
/-- Strict weak order, the requirement on comparators. -/
structure StrictWeak {α : Type} (lt : α → α → Prop) : Prop where
  irrefl : ∀ x, ¬ lt x x
  trans : ∀ x y z, lt x y → lt y z → lt x z
  incomp : ∀ x y z, ¬ lt x y → ¬ lt y z → ¬ lt x z
end Kigumi.Spec

namespace Kigumi.ParallelSort
open Classical in
theorem exists_sorted {α : Type} {lt : α → α → Prop} (h : Spec.StrictWeak lt) (l : List α) : ∃ l', l'.Perm l ∧ Sorted lt l' := by
  refine ⟨l.mergeSort (fun x y => decide (¬ lt y x)), List.mergeSort_perm _ _, ?_⟩
  have := List.pairwise_mergeSort (le := fun x y => decide (¬ lt y x)) (by
    intro a b c hab hbc
    simp only [decide_eq_true_eq] at *
    exact h.incomp c b a hbc hab) (by
    intro a b
    simp only [decide_not, Bool.or_eq_true, Bool.not_eq_true', decide_eq_false_iff_not]
    by_contra hc
    push Not at hc
    exact h.irrefl a (h.trans a b a hc.2 hc.1)) l
  unfold Sorted
  exact this.imp (by intro a b hab; simpa using hab)
end Kigumi.ParallelSort

namespace Kigumi.Props
open Kigumi ParallelSort
variable {α : Type}

/-- **Parallel sort sorts.** Every possible outcome, for every comparator, size, thread count and schedule, is a sorted permutation of the
initial contents; undefined behaviour (merging unsorted ranges) does not occur. -/
theorem C16_sorts (lt : α → α → Prop) {configured : Nat} (hc : 1 ≤ configured) (xs : List α) {r : Option (List α)}
    (h : Returns lt configured xs r) : ∃ ys, r = some ys ∧ ys.Perm xs ∧ ys.Pairwise (fun x y => ¬ lt y x) := by
  unfold Returns at h
  by_cases h0 : xs.length = 0
  · rw [if_pos h0] at h
    have : xs = [] := List.length_eq_zero_iff.1 h0
    subst this
    exact ⟨[], h, .refl _, .nil⟩
  · rw [if_neg h0] at h
    simp only at h
    by_cases h1 : numThreads configured xs.length = 1
    · rw [if_pos h1] at h; exact h
    · rw [if_neg h1] at h
      obtain ⟨k, c, hex, hd, rfl⟩ := h
      have hn : 0 < numThreads configured xs.length := by unfold numThreads; omega
      obtain ⟨a, b, d⟩ := final_sorted hex hn hd
      exact ⟨c.arr, by simp [a], b, d⟩

/-- **It ends.** For a strict weak order every execution has at most `n·(n+1)` phases (`n` threads), never deadlocks at the barrier, and the call has an outcome. -/
theorem C16_terminates {lt : α → α → Prop} (hlt : Spec.StrictWeak lt) (configured : Nat) (xs : List α) :
    (∀ n k c, Exec lt n xs k c → k ≤ n * (n + 1) ∧ (¬ AllDone n c → ∃ t c', t < n ∧ Step lt xs.length n t c c')) ∧
    ∃ r, Returns lt configured xs r := by
  have hs := exists_sorted hlt
  refine ⟨?_, ?_⟩
  · intro n k c h
    refine ⟨?_, progress hs h⟩
    have := steps_bound h
    rw [this.1]; exact total_le this.2
  · unfold Returns
    by_cases h0 : xs.length = 0
    · exact ⟨some xs, by rw [if_pos h0]⟩
    · by_cases h1 : numThreads configured xs.length = 1
      · obtain ⟨ys, hp, hs⟩ := hs xs
        exact ⟨some ys, by rw [if_neg h0]; simp only; rw [if_pos h1]; exact ⟨ys, rfl, hp, hs⟩⟩
      · obtain ⟨k, c, hex, hd⟩ := exec_complete hs (Exec.nil (lt := lt) (n := numThreads configured xs.length) (xs := xs))
        exact ⟨_, by rw [if_neg h0]; simp only; rw [if_neg h1]; exact ⟨k, c, hex, hd, rfl⟩⟩

/-- Between two barriers the threads work on disjoint parts of the range: in the sorting phase two threads' parts, and in a merging
phase the blocks of two different merging threads, do not overlap. -/
theorem C16_disjoint (size n k : Nat) {t u : Nat} (ht : t < n) (hu : u < n) (htu : t < u) :
    part size n (t + 1) ≤ part size n u ∧
    (t % (2 * 2 ^ k) = 0 → u % (2 * 2 ^ k) = 0 → part size n (min (t + 2 * 2 ^ k) n) ≤ part size n u) := by
  refine ⟨part_mono (by omega), ?_⟩
  intro h1 h2
  apply part_mono
  have e : 2 * 2 ^ k = 2 ^ (k + 1) := by ring
  rw [e] at h1 h2 ⊢
  rcases aligned (le_refl (k + 1)) h1 h2 with h | h | h
  · omega
  · omega
  · have := Nat.two_pow_pos (k + 1); omega

/-- The hypotheses are met: natural numbers in their usual order, 3000 elements, two threads. -/
example : Spec.StrictWeak (fun a b : Nat => a < b) ∧ numThreads 2 3000 = 2 :=
  ⟨⟨fun _ => by omega, fun _ _ _ => by omega, fun _ _ _ => by omega⟩, by decide⟩

example (xs : List Nat) : ∃ r ys, Returns (fun a b : Nat => a < b) 2 xs r ∧ r = some ys ∧ ys.Perm xs := by
  obtain ⟨r, hr⟩ := (C16_terminates (lt := fun a b : Nat => a < b)
    ⟨fun _ => by omega, fun _ _ _ => by omega, fun _ _ _ => by omega⟩ 2 xs).2
  obtain ⟨ys, h1, h2, -⟩ := C16_sorts _ (by decide) _ hr
  exact ⟨r, ys, hr, h1, h2⟩

end Kigumi.Props
