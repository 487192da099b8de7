import Verif.Model.ThreadLocal
import Verif.Tactics

/-! # C19: dependence on earlier operations -/
namespace Kigumi.ThreadLocal
open Kigumi Outcome

theorem uses_none (now : Nat) : ∀ n, n ≠ 0 → uses now n none = ok (some now) ∧ uses now n (some now) = ok (some now) := by
  intro n
  induction n with
  | zero => intro h; exact absurd rfl h
  | succ n ih =>
    intro _
    cases n with
    | zero => simp [uses, use]
    | succ n =>
      have := ih (by omega)
      constructor
      · rw [uses]; simp only [use, ok_bind]; exact this.2
      · rw [uses]; simp only [use, if_true, ok_bind]; exact this.2

theorem uses_other {now k n : Nat} (hk : k ≠ now) (hn : n ≠ 0) : ∃ w, uses now n (some k) = ub w := by
  cases n with
  | zero => exact absurd rfl hn
  | succ n => exact ⟨_, by rw [uses, use, if_neg hk]; rfl⟩

theorem workers_ok (now : Nat) : ∀ (split : List Nat) (x : Option Nat), ∃ y, split.foldl (fun r n => r.bind (fun _ => uses now n none)) (ok x) = ok y := by
  intro split
  induction split with
  | nil => intro x; exact ⟨x, rfl⟩
  | cons n ns ih =>
    intro x
    rw [List.foldl_cons]
    have : ∃ z, (ok x : Outcome (Option Nat)).bind (fun _ => uses now n none) = ok z := by
      simp only [Outcome.bind]
      by_cases hn : n = 0
      · subst hn; exact ⟨none, rfl⟩
      · exact ⟨_, (uses_none now n hn).1⟩
    obtain ⟨z, hz⟩ := this
    rw [hz]; exact ih z

/-- A run binds the calling thread exactly if it does work on it. -/
theorem run_result {now : Nat} {o : Op} {bound : Option Nat} {r : Outcome (Option Nat)} (h : Run now o bound r) :
    (o.size ≠ 0 ∧ onCaller o = true → r = uses now o.size bound) ∧ (¬ (o.size ≠ 0 ∧ onCaller o = true) → r = ok bound) := by
  cases h with
  | empty h => exact ⟨fun h' => absurd h h'.1, fun _ => rfl⟩
  | caller h1 h2 => exact ⟨fun _ => rfl, fun h => absurd ⟨h1, h2⟩ h⟩
  | workers split h1 h2 h3 =>
    refine ⟨fun h => absurd (h2 ▸ h.2) (by decide), fun _ => ?_⟩
    obtain ⟨y, hy⟩ := workers_ok now split none
    rw [hy]; rfl

/-- Operations that run their loop on the calling thread. -/
def busy (os : List Op) : List Op := os.filter (fun o => o.size != 0 && onCaller o)

theorem history_bound : ∀ (os : List Op) (now k : Nat) (r : Outcome Unit), k < now → History now os (some k) r → ((∃ w, r = ub w) ↔ busy os ≠ []) ∧ (busy os = [] → r = ok ()) := by
  intro os
  induction os with
  | nil => intro now k r _ h; cases h; simp [busy]
  | cons o os ih =>
    intro now k r hk h
    cases h with
    | ub hr =>
      obtain ⟨h1, h2⟩ := run_result hr
      by_cases hb : o.size ≠ 0 ∧ onCaller o = true
      · have : busy (o :: os) ≠ [] := by simp [busy, List.filter_cons, hb]
        exact ⟨⟨fun _ => this, fun _ => ⟨_, rfl⟩⟩, fun h => absurd h this⟩
      · have := h2 hb; cases this
    | cons hr hh =>
      obtain ⟨h1, h2⟩ := run_result hr
      by_cases hb : o.size ≠ 0 ∧ onCaller o = true
      · obtain ⟨w, hw⟩ := uses_other (n := o.size) (by omega : k ≠ now) hb.1
        rw [hw] at h1; have := h1 hb; cases this
      · have := h2 hb; cases this
        have e : busy (o :: os) = busy os := by
          unfold busy; rw [List.filter_cons, if_neg]; simpa using hb
        rw [e]; exact ih (now + 1) k r (by omega) hh

theorem history_fresh : ∀ (os : List Op) (now : Nat) (r : Outcome Unit), History now os none r → ((∃ w, r = ub w) ↔ 2 ≤ (busy os).length) ∧ ((busy os).length ≤ 1 → r = ok ()) := by
  intro os
  induction os with
  | nil => intro now r h; cases h; simp [busy]
  | cons o os ih =>
    intro now r h
    cases h with
    | ub hr =>
      obtain ⟨h1, h2⟩ := run_result hr
      by_cases hb : o.size ≠ 0 ∧ onCaller o = true
      · have := h1 hb; rw [(uses_none now o.size hb.1).1] at this; cases this
      · have := h2 hb; cases this
    | cons hr hh =>
      obtain ⟨h1, h2⟩ := run_result hr
      by_cases hb : o.size ≠ 0 ∧ onCaller o = true
      · have := h1 hb; rw [(uses_none now o.size hb.1).1] at this; cases this
        obtain ⟨i1, i2⟩ := history_bound os (now + 1) now r (by omega) hh
        have e : busy (o :: os) = o :: busy os := by
          unfold busy; rw [List.filter_cons, if_pos]; simpa using hb
        rw [i1, e]
        refine ⟨?_, fun h => i2 ?_⟩
        · cases busy os <;> simp
        · cases hx : busy os with
          | nil => rfl
          | cons a b => rw [hx] at h; simp at h
      · have := h2 hb; cases this
        have e : busy (o :: os) = busy os := by
          unfold busy; rw [List.filter_cons, if_neg]; simpa using hb
        rw [e]; exact ih (now + 1) r hh

/-- The loop is run on the calling thread exactly if one thread is configured or there is exactly one element (`numThreads` is at least one otherwise). -/
theorem onCaller_iff (o : Op) (h1 : 1 ≤ o.configured) (h2 : o.size ≠ 0) : onCaller o = true ↔ o.configured = 1 ∨ o.size = 1 := by
  simp only [onCaller, ParallelDo.numThreads, if_true, beq_iff_eq]
  omega

end Kigumi.ThreadLocal

namespace Kigumi.Props
open Kigumi Outcome ThreadLocal

/-- **The property fails**: with one configured thread, the second operation uses the points of the first, which no longer exist. -/
theorem C19_false_single_thread : ∃ w, History 0 [⟨5, 1⟩, ⟨5, 1⟩] none (ub w) :=
  ⟨_, .cons (.caller (by decide) (by decide)) (.ub (.caller (by decide) (by decide)))⟩

/-- It also fails with many threads: an operation with a single candidate pair runs on the calling thread. -/
theorem C19_false_single_pair : ∃ w, History 0 [⟨1, 8⟩, ⟨100, 8⟩, ⟨1, 8⟩] none (ub w) :=
  ⟨_, .cons (.caller (by decide) (by decide)) (.cons (.workers [100] (by decide) (by decide) (by decide)) (.ub (.caller (by decide) (by decide))))⟩

/-- Exactly which histories are affected: an execution reaches undefined behaviour iff at least two of its operations ran a non-empty loop on the calling thread (one thread configured, or one element).
Missing from the full statement: the other histories. -/
theorem C19_histories_partial (os : List Op) (hc : ∀ o ∈ os, 1 ≤ o.configured) {r : Outcome Unit} (h : History 0 os none r) :
    ((∃ w, r = ub w) ↔ 2 ≤ (os.filter (fun o => decide (o.size ≠ 0 ∧ (o.configured = 1 ∨ o.size = 1)))).length) ∧
    ((os.filter (fun o => decide (o.size ≠ 0 ∧ (o.configured = 1 ∨ o.size = 1)))).length ≤ 1 → r = ok ()) := by
  have e : busy os = os.filter (fun o => decide (o.size ≠ 0 ∧ (o.configured = 1 ∨ o.size = 1))) := by
    unfold busy
    apply List.filter_congr
    intro o ho
    rw [Bool.eq_iff_iff]
    simp only [Bool.and_eq_true, bne_iff_ne, decide_eq_true_eq]
    constructor
    · rintro ⟨h1, h2⟩; exact ⟨h1, (onCaller_iff o (hc o ho) h1).1 h2⟩
    · rintro ⟨h1, h2⟩; exact ⟨h1, (onCaller_iff o (hc o ho) h1).2 h2⟩
  rw [← e]
  exact history_fresh os 0 r h

/-- Two operations with many pairs and several threads are fine. -/
example : History 0 [⟨5, 4⟩, ⟨7, 4⟩] none (ok ()) :=
  .cons (.workers [2, 3] (by decide) (by decide) (by decide)) (.cons (.workers [1, 2, 4] (by decide) (by decide) (by decide)) .nil)

end Kigumi.Props
