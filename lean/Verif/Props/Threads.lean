import Verif.Model.Context
import Verif.Model.ParallelDo
import Verif.Tactics
import Mathlib.Tactic.Ring

/-! # C17, C18: scoped options and thread counts -/
namespace Kigumi.Spec.Scopes
/-- The innermost open scope decides; `opts` are the options of the open scopes, innermost first. -/
def inForce {O : Type} (outside : O) (opts : List O) : O := opts.head?.getD outside

/-- What reads should return, with the stack of open scopes; `none` when a scope is closed that was not opened. -/
def reads {O : Type} (outside : O) : List O → List (Context.Event O) → Option (List O × List O)
  | st, [] => some (st, [])
  | st, .construct o :: es => reads outside (o :: st) es
  | [], .destroy :: _ => none
  | _ :: st, .destroy :: es => reads outside st es
  | st, .read :: es => (reads outside st es).map (fun (st', r) => (st', inForce outside st :: r))
end Kigumi.Spec.Scopes

namespace Kigumi.Props
open Kigumi Outcome Context Spec.Scopes

/-- The backups of the live objects, given the options of the open scopes. -/
def backups {O : Type} (outside : O) : List O → List O
  | [] => []
  | _ :: st => inForce outside st :: backups outside st

theorem run_reads {O : Type} (outside : O) (es : List (Event O)) : ∀ (st : List O) st' r, reads outside st es = some (st', r) →
    run ⟨inForce outside st, backups outside st⟩ es = ok (⟨inForce outside st', backups outside st'⟩, r) := by
  induction es with
  | nil => intro st st' r h; simp [reads] at h; obtain ⟨rfl, rfl⟩ := h; rfl
  | cons e es ih =>
    intro st st' r h
    cases e with
    | construct o =>
      have := ih (o :: st) st' r h
      simp only [run, step, ok_bind]
      have e1 : (⟨inForce outside (o :: st), backups outside (o :: st)⟩ : State O) = ⟨o, inForce outside st :: backups outside st⟩ := rfl
      rw [e1] at this
      rw [this]; rfl
    | destroy =>
      cases st with
      | nil => simp [reads] at h
      | cons o st =>
        have := ih st st' r h
        simp only [run, step, backups, ok_bind]
        rw [this]; rfl
    | read =>
      simp only [reads] at h
      cases hr : reads outside st es with
      | none => rw [hr] at h; simp at h
      | some p =>
        obtain ⟨s2, r2⟩ := p
        rw [hr] at h; simp at h
        obtain ⟨rfl, rfl⟩ := h
        have := ih st s2 r2 hr
        simp only [run, step, ok_bind, this]; rfl

/-- **Scoped options.** In every properly nested sequence of scopes, every read returns the options of the innermost open scope
(those in force before, outside all scopes); when all scopes are closed, the options in force before are in force again. -/
theorem C17_scopes {O : Type} (outside : O) (es : List (Event O)) {st : List O} {r : List O}
    (h : reads outside [] es = some (st, r)) :
    ∃ s, run ⟨outside, []⟩ es = ok (s, r) ∧ s.current = inForce outside st ∧ (st = [] → s.current = outside) := by
  refine ⟨_, run_reads outside es [] st r h, rfl, ?_⟩
  rintro rfl; rfl

example : run ⟨8, []⟩ [.read, .construct 4, .read, .construct 1, .read, .destroy, .read, .destroy, .read] = ok (⟨8, []⟩, [8, 4, 1, 4, 8]) := rfl
example : reads 8 [] [.read, .construct 4, .read, .construct 1, .read, .destroy, .read, .destroy, .read] = some ([], [8, 4, 1, 4, 8]) := by
  decide

/-- The configured thread count is always at least 1 and at most the hardware concurrency (or 1); requests in that range are honoured, others are replaced by the nearest count in it. -/
theorem C17_thread_count (hardware n : Nat) :
    1 ≤ clampThreads hardware n ∧ clampThreads hardware n ≤ max 1 hardware ∧
    (1 ≤ n → n ≤ max 1 hardware → clampThreads hardware n = n) ∧
    (n = 0 → clampThreads hardware n = 1) ∧ (max 1 hardware < n → clampThreads hardware n = max 1 hardware) ∧
    1 ≤ defaultThreads hardware ∧ defaultThreads hardware ≤ max 1 hardware := by
  unfold clampThreads defaultThreads; simp only; split <;> (try split) <;> omega

example : clampThreads 8 0 = 1 ∧ clampThreads 8 100 = 8 ∧ clampThreads 0 5 = 1 ∧ clampThreads 8 3 = 3 := by decide

theorem builders_le (limit : Nat) : ∀ fuel d m, builders limit fuel d m ≤ 2 ^ (limit - d) := by
  intro fuel
  induction fuel with
  | zero => intro d m; exact Nat.one_le_two_pow
  | succ fuel ih =>
    intro d m
    unfold builders
    split
    · exact Nat.one_le_two_pow
    · split
      · rename_i h
        have h1 := ih (d + 1) (m / 2)
        have h2 := ih (d + 1) (m - m / 2)
        have : limit - d = (limit - (d + 1)) + 1 := by omega
        rw [this, Nat.pow_succ]; omega
      · exact Nat.one_le_two_pow

/-- **Thread counts** (`_partial`): the loops with merged state, the parallel sort and the construction of the spatial index never have more
than the configured number of worker threads running, the loops without merged state at most the hardware concurrency.
Missing for the full claim: the bound by the configured number for the latter, which is false (next theorem). -/
theorem C18_thread_bound_partial (configured hardware size : Nat) (hc : 1 ≤ configured) :
    ParallelDo.numThreads true configured hardware size ≤ configured ∧
    sortThreads configured size ≤ configured ∧
    (∀ fuel, builders (depthLimit configured) fuel 0 size ≤ configured) ∧
    ParallelDo.numThreads false configured hardware size ≤ max 1 hardware := by
  refine ⟨by simp [ParallelDo.numThreads], by unfold sortThreads; omega, ?_, by simp [ParallelDo.numThreads]; omega⟩
  intro fuel
  refine Nat.le_trans (builders_le _ fuel 0 size) ?_
  exact Nat.log2_self_le (by omega)

/-- There is a thread if there is something to do, and none without work. -/
theorem C18_some_thread_partial (hasPost : Bool) (configured hardware size : Nat) (hc : 1 ≤ configured) :
    (1 ≤ ParallelDo.numThreads hasPost configured hardware size ↔ 1 ≤ size) ∧ (1 ≤ sortThreads configured size ↔ 1 ≤ size) ∧ ParallelDo.numThreads hasPost configured hardware size ≤ size ∧ (∀ k, size ≤ 1024 * k → sortThreads configured size ≤ k) := by
  refine ⟨?_, by unfold sortThreads; omega, ?_, fun k hk => by unfold sortThreads; omega⟩
  · cases hasPost <;> simp [ParallelDo.numThreads] <;> omega
  · cases hasPost <;> simp [ParallelDo.numThreads]

/-- A loop without merged state ignores the configured thread count: with one configured thread, eight hardware threads and a
hundred elements it starts eight worker threads. -/
theorem C18_stateless_exceeds : ∃ configured hardware size, 1 ≤ configured ∧
    ParallelDo.numThreads false configured hardware size > configured := ⟨1, 8, 100, by decide, by decide⟩

/-- The full claim of C18, for reference: it is false. -/
theorem C18_full_claim_false : ¬ ∀ hasPost configured hardware size, 1 ≤ configured →
    ParallelDo.numThreads hasPost configured hardware size ≤ configured := by
  intro h
  have := h false 1 8 100 (by decide)
  revert this; decide

end Kigumi.Props
