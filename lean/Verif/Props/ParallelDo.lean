import Verif.Proofs.ParallelDo
import Mathlib.Data.List.Perm.Basic

/-! # C13, C14, C15, C66: parallel loops -/
namespace Kigumi.ParallelDo
open Kigumi
variable {S E G : Type} {P : Params S E G} {n : Nat} {g : G}

theorem partition_perm {α : Type} (key : α → Nat) (l : List α) : ∀ n,
    ((List.range n).flatMap (fun t => l.filter (fun x => key x == t))).Perm (l.filter (fun x => decide (key x < n))) := by
  intro n
  induction n with
  | zero => simp
  | succ n ih =>
    rw [List.range_succ, List.flatMap_append]
    refine (ih.append_right _).trans ?_
    have h := List.filter_append_perm (fun x => decide (key x < n)) (l.filter (fun x => decide (key x < n + 1)))
    rw [List.filter_filter, List.filter_filter] at h
    have e1 : l.filter (fun a => decide (key a < n) && decide (key a < n + 1)) = l.filter (fun x => decide (key x < n)) := by
      apply List.filter_congr; intro x _; simp; omega
    have e2 : l.filter (fun a => !decide (key a < n) && decide (key a < n + 1)) = l.filter (fun x => key x == n) := by
      apply List.filter_congr; intro x _; rw [Bool.eq_iff_iff]; simp; omega
    rw [e1, e2] at h
    simpa using h

theorem bodies_total {f : Nat → S → S} (hf : ∀ i s, i < P.size → P.body i s = .ok (f i s)) : ∀ (l : List Nat) (s : S),
    (∀ i ∈ l, i < P.size) → bodies P l s = .ok (l.foldl (fun s i => f i s) s) := by
  intro l
  induction l with
  | nil => intro s _; rfl
  | cons i is ih => intro s h; simp only [bodies, hf i s (h i (by simp)), List.foldl_cons]; exact ih _ (fun j hj => h j (by simp [hj]))

theorem seqLoop_total {f : Nat → S → S} (hf : ∀ i s, i < P.size → P.body i s = .ok (f i s)) : ∀ (l : List Nat) (s : S)
    (log : List Nat), (∀ i ∈ l, i < P.size) → seqLoop P l s log = (.ok (l.foldl (fun s i => f i s) s), log ++ l) := by
  intro l
  induction l with
  | nil => intro s log _; simp [seqLoop]
  | cons i is ih => intro s log h; simp only [seqLoop, hf i s (h i (by simp)), List.foldl_cons]; rw [ih _ _ (fun j hj => h j (by simp [hj]))]; simp

theorem not_thrown {f : Nat → S → S} (hf : ∀ i s, i < P.size → P.body i s = .ok (f i s))
    (hpost : ∀ g s, (P.post g s).2 = none) : ∀ e, ¬ Thrown P e := by
  rintro e (⟨i, s, hi, h⟩ | ⟨_, g, s, h⟩)
  · rw [hf i s hi] at h; cases h
  · rw [hpost] at h; cases h

theorem seqLoop_cases : ∀ (l : List Nat) (s : S) (log : List Nat),
    (∃ s', seqLoop P l s log = (.ok s', log ++ l)) ∨ ∃ e i s' log', i ∈ l ∧ P.body i s' = .error e ∧ seqLoop P l s log = (.error e, log') := by
  intro l
  induction l with
  | nil => intro s log; left; exact ⟨s, by simp [seqLoop]⟩
  | cons i is ih =>
    intro s log
    cases hb : P.body i s with
    | ok s' =>
      rcases ih s' (log ++ [i]) with ⟨s2, h⟩ | ⟨e, j, s2, log', hj, hb2, h⟩
      · left; exact ⟨s2, by simp [seqLoop, hb, h]⟩
      · right; exact ⟨e, j, s2, log', by simp [hj], hb2, by simp [seqLoop, hb, h]⟩
    | error e => right; exact ⟨e, i, s, _, by simp, hb, by simp [seqLoop, hb]; rfl⟩

end Kigumi.ParallelDo

namespace Kigumi.Props
open Kigumi ParallelDo

variable {S E G : Type}

/-- **Exactly once.** When neither the bodies nor the merges throw, every possible result of the loop, under every schedule
and thread count, is a normal return for which the body was applied to every element exactly once; the elements were split into parts
(one per thread), each thread folded the body over its part starting from a copy of the initial state, and each thread's
final state was merged exactly once. -/
theorem C13_exactly_once (P : Params S E G) (f : Nat → S → S) (hf : ∀ i s, i < P.size → P.body i s = .ok (f i s))
    (hpost : ∀ g s, (P.post g s).2 = none) {configured hardware : Nat} (hc : 1 ≤ configured) {g : G} {r : Result E G}
    (h : Returns P configured hardware g r) :
    r.exc = none ∧ r.thrown = [] ∧ r.log.Perm (List.range P.size) ∧
    (P.hasPost = false → r.acc = g) ∧
    (P.hasPost = true → ∃ parts : List (List Nat), parts.flatten.Perm (List.range P.size) ∧
      parts.length = min configured P.size ∧
      r.acc = (parts.map (fun l => l.foldl (fun s i => f i s) P.init)).foldl (fun g s => (P.post g s).1) g) := by
  unfold Returns at h
  by_cases h0 : P.size = 0
  · rw [if_pos h0] at h; subst h
    refine ⟨rfl, rfl, by simp [h0], fun _ => rfl, fun _ => ⟨[], by simp [h0], by simp [h0], rfl⟩⟩
  · rw [if_neg h0] at h
    simp only at h
    by_cases h1 : numThreads P.hasPost configured hardware P.size = 1
    · rw [if_pos h1] at h; subst h
      have hs := seqLoop_total hf (List.range P.size) P.init [] (by simp)
      rw [List.nil_append] at hs
      unfold seqRun
      rw [hs]
      cases hp : P.hasPost
      · refine ⟨rfl, rfl, .refl _, fun _ => rfl, fun h => by simp at h⟩
      · refine ⟨?_, ?_, .refl _, fun h => by simp at h, fun _ => ⟨[List.range P.size], by simp, ?_, rfl⟩⟩
        · simp [hpost]
        · simp [hpost]
        · simp [numThreads, hp] at h1; simp [h1]
    · rw [if_neg h1] at h
      obtain ⟨k, c, hex, hd, rfl⟩ := h
      set n := numThreads P.hasPost configured hardware P.size with hn
      have hnpos : 0 < n := by
        rw [hn]; unfold numThreads; split <;> omega
      have hexc := exc_exec hex
      have hth : c.thrown = [] := by
        rw [List.eq_nil_iff_forall_not_mem]; intro e he; exact not_thrown hf hpost e (hexc.src e he)
      have hx : c.exc = none := by
        cases hx : c.exc with
        | none => rfl
        | some e => have := hexc.exc e hx; rw [hth] at this; simp at this
      obtain ⟨-, hfin⟩ := final_of_no_exc hex hnpos hd hx
      have ho := own_exec hex
      have hl := loc_exec hex
      refine ⟨hx, hth, hfin.perm, ?_, ?_⟩
      · intro hp
        have hm : c.merged = [] := by
          clear hfin hl ho hth hx hexc hd
          induction hex with
          | nil => rfl
          | snoc h ht st ih =>
            cases st with
            | postOk hp2 hb => have := ((loc_exec h).post _ _ (Or.inr hp2)).2; rw [hp] at this; simp at this
            | _ => exact ih
        have := acc_exec hpost hex
        rw [this, hm]; rfl
      · intro hp
        have hmp := hfin.mperm hp
        refine ⟨c.merged.map (fun m => mine c m.1), ?_, ?_, ?_⟩
        · have e1 : (c.merged.map (fun m => mine c m.1)).flatten = (c.merged.map Prod.fst).flatMap (mine c) := by
            rw [List.flatMap_def, List.map_map]; rfl
          rw [e1]
          refine (hmp.flatMap_right (mine c)).trans ?_
          have hkey : ∀ i ∈ c.log, ∃ t, t < n ∧ c.owner[i]? = some t := by
            intro i hi
            exact hfin.owned i (by have := hfin.perm.mem_iff.1 hi; simpa using this)
          have e2 : (List.range n).flatMap (mine c)
              = (List.range n).flatMap (fun t => c.log.filter (fun i => (c.owner[i]?).getD n == t)) := by
            apply List.flatMap_congr
            intro t ht
            unfold mine
            apply List.filter_congr
            intro i hi
            obtain ⟨u, hu, hou⟩ := hkey i hi
            simp [hou]
          rw [e2]
          refine (partition_perm (fun i => (c.owner[i]?).getD n) c.log n).trans ?_
          rw [List.filter_eq_self.2]
          · exact hfin.perm
          · intro i hi
            obtain ⟨u, hu, hou⟩ := hkey i hi
            simpa [hou] using hu
        · have := hmp.length_eq
          simp at this
          rw [List.length_map, this, hn]; simp [numThreads, hp]
        · have := acc_exec hpost hex
          rw [this, List.map_map, List.foldl_map]
          have : ∀ (l : List (Nat × S)) (g : G), (∀ m ∈ l, m ∈ c.merged) → l.foldl (fun g m => (P.post g m.2).1) g =
              l.foldl (fun x y => (P.post x (((fun l => List.foldl (fun s i => f i s) P.init l) ∘ fun m => mine c m.1) y)).1) g := by
            intro l
            induction l with
            | nil => intro g _; rfl
            | cons m l ih =>
              intro g hm
              simp only [List.foldl_cons]
              have hs := hfin.states m.1 m.2 (hm m (by simp))
              rw [bodies_total hf _ _ (fun i hi => by
                unfold mine at hi
                have := hfin.perm.mem_iff.1 (List.mem_filter.1 hi).1
                simpa using this)] at hs
              have hs' := Except.ok.inj hs
              simp only [Function.comp_apply]
              rw [hs']
              exact ih _ (fun m hm' => hm m (by simp [hm']))
          exact this _ _ (fun m hm => hm)

/-- The collecting loops of the library (each body appends its findings to the thread's list, each thread's list is
appended to the result): the result is a permutation of what the sequential loop finds, whatever the schedule. -/
theorem C13_collect {α : Type} (size : Nat) (out : Nat → List α) {configured hardware : Nat} (hc : 1 ≤ configured)
    {g : List α} {r : Result E (List α)}
    (h : Returns (S := List α) (E := E) ⟨size, [], fun i s => .ok (s ++ out i), true, fun g s => (g ++ s, none)⟩ configured hardware g r) :
    r.exc = none ∧ r.acc.Perm (g ++ (List.range size).flatMap out) := by
  obtain ⟨h1, -, -, -, h2⟩ := C13_exactly_once _ (fun i s => s ++ out i) (fun _ _ _ => rfl) (fun _ _ => rfl) hc h
  obtain ⟨parts, hp, -, ha⟩ := h2 rfl
  refine ⟨h1, ?_⟩
  have e1 : ∀ (l : List Nat) (s : List α), l.foldl (fun s i => s ++ out i) s = s ++ l.flatMap out := by
    intro l; induction l with
    | nil => simp
    | cons i l ih => intro s; simp [ih]
  have e2 : ∀ (ps : List (List Nat)) (g : List α),
      (ps.map (fun l => l.foldl (fun s i => s ++ out i) [])).foldl (fun g s => g ++ s) g = g ++ ps.flatten.flatMap out := by
    intro ps; induction ps with
    | nil => simp
    | cons p ps ih =>
      intro g; rw [List.map_cons, List.foldl_cons, ih, e1]; simp [List.flatMap_append]
  rw [ha]
  simp only
  rw [e2]
  exact (hp.flatMap_right out).append_left g

/-- The reducing loops of the library (e.g. `warnings |= …`): with an associative and commutative operation and its unit as initial
state, the result equals the sequential reduction, whatever the schedule. -/
theorem C13_reduce {M : Type} (op : M → M → M) (unit : M) (assoc : ∀ a b c, op (op a b) c = op a (op b c))
    (comm : ∀ a b, op a b = op b a) (hunit : ∀ a, op a unit = a) (size : Nat) (v : Nat → M) {configured hardware : Nat}
    (hc : 1 ≤ configured) {g : M} {r : Result E M}
    (h : Returns (S := M) (E := E) ⟨size, unit, fun i s => .ok (op s (v i)), true, fun g s => (op g s, none)⟩ configured hardware g r) :
    r.exc = none ∧ r.acc = ((List.range size).map v).foldl op g := by
  obtain ⟨h1, -, -, -, h2⟩ := C13_exactly_once _ (fun i s => op s (v i)) (fun _ _ _ => rfl) (fun _ _ => rfl) hc h
  obtain ⟨parts, hp, -, ha⟩ := h2 rfl
  refine ⟨h1, ?_⟩
  have e1 : ∀ (l : List Nat) (s t : M), op s (l.foldl (fun s i => op s (v i)) t) = l.foldl (fun s i => op s (v i)) (op s t) := by
    intro l; induction l with
    | nil => intro s t; rfl
    | cons i l ih => intro s t; simp only [List.foldl_cons]; rw [ih, assoc]
  have e2 : ∀ (ps : List (List Nat)) (g : M),
      (ps.map (fun l => l.foldl (fun s i => op s (v i)) unit)).foldl (fun g s => op g s) g =
        ps.flatten.foldl (fun s i => op s (v i)) g := by
    intro ps; induction ps with
    | nil => intro g; rfl
    | cons p ps ih =>
      intro g; rw [List.map_cons, List.foldl_cons, ih, e1, hunit, List.flatten_cons, List.foldl_append]
  rw [ha]
  simp only
  rw [e2, List.foldl_map]
  have : RightCommutative (fun s i => op s (v i)) := ⟨fun a b c => by rw [assoc, comm (v b), ← assoc]⟩
  exact hp.foldl_eq g

/-- **Exceptions.** Every possible result satisfies: the loop throws iff something was thrown inside; what it throws is one of the
exceptions thrown by a body on an element of the range or by a merge; and if it returns normally, the body was applied to every element exactly once. -/
theorem C14_exceptions (P : Params S E G) {configured hardware : Nat} (hc : 1 ≤ configured) {g : G} {r : Result E G}
    (h : Returns P configured hardware g r) :
    (r.exc = none ↔ r.thrown = []) ∧ (∀ e, r.exc = some e → e ∈ r.thrown) ∧
    (∀ e ∈ r.thrown, (∃ i s, i < P.size ∧ P.body i s = .error e) ∨ (P.hasPost = true ∧ ∃ g s, (P.post g s).2 = some e)) ∧
    (r.exc = none → r.log.Perm (List.range P.size)) := by
  unfold Returns at h
  by_cases h0 : P.size = 0
  · rw [if_pos h0] at h; subst h; simp [h0]
  · rw [if_neg h0] at h
    simp only at h
    by_cases h1 : numThreads P.hasPost configured hardware P.size = 1
    · rw [if_pos h1] at h; subst h
      unfold seqRun
      rcases seqLoop_cases (P := P) (List.range P.size) P.init [] with ⟨s, hs⟩ | ⟨e, i, s, log, hi, hb, hs⟩
      · rw [hs]
        cases hp : P.hasPost
        · simp
        · simp only [if_true, List.nil_append]
          cases hpo : (P.post g s).2 with
          | none => simp
          | some e => simp; right; exact ⟨g, s, hpo⟩
      · rw [hs]; simp; left; exact ⟨i, by simpa using hi, s, hb⟩
    · rw [if_neg h1] at h
      obtain ⟨k, c, hex, hd, rfl⟩ := h
      set n := numThreads P.hasPost configured hardware P.size with hn
      have hnpos : 0 < n := by
        rw [hn]; unfold numThreads; split <;> omega
      have hexc := exc_exec hex
      refine ⟨⟨fun hx => (final_of_no_exc hex hnpos hd hx).1, ?_⟩, hexc.exc, hexc.src,
        fun hx => (final_of_no_exc hex hnpos hd hx).2.perm⟩
      intro hth
      cases hx : c.exc with
      | none => rfl
      | some e => have := hexc.exc e hx; simp only at hth; rw [hth] at this; simp at this

/-- **Which elements were visited**, also when an exception leaves the loop: the body was applied to the elements of a beginning of the range, to each of them exactly once; and whatever was
thrown was thrown by a body on one of these elements or by a merge. -/
theorem C14_visited (P : Params S E G) {configured hardware : Nat} {g : G} {r : Result E G} (h : Returns P configured hardware g r) :
    (∃ m ≤ P.size, r.log.Perm (List.range m)) ∧
    ∀ e ∈ r.thrown, (∃ i ∈ r.log, ∃ s, P.body i s = .error e) ∨ (P.hasPost = true ∧ ∃ g s, (P.post g s).2 = some e) := by
  unfold Returns at h
  by_cases h0 : P.size = 0
  · rw [if_pos h0] at h; subst h; exact ⟨⟨0, Nat.zero_le _, .refl _⟩, fun e he => by cases he⟩
  · rw [if_neg h0] at h
    dsimp only at h
    by_cases h1 : numThreads P.hasPost configured hardware P.size = 1
    · rw [if_pos h1] at h; subst h
      have key : ∀ (k a : Nat) (s : S), (∃ s', seqLoop P (List.range' a k) s (List.range a) = (.ok s', List.range (a + k))) ∨
          ∃ e i s', i < a + k ∧ P.body i s' = .error e ∧ seqLoop P (List.range' a k) s (List.range a) = (.error e, List.range (i + 1)) := by
        intro k
        induction k with
        | zero => intro a s; exact .inl ⟨s, rfl⟩
        | succ k ih =>
          intro a s
          rw [List.range'_succ]
          simp only [seqLoop]
          rw [← List.range_succ]
          cases hb : P.body a s with
          | error e => exact .inr ⟨e, a, s, by omega, hb, rfl⟩
          | ok s' =>
            have := ih (a + 1) s'
            rwa [show a + 1 + k = a + (k + 1) from by omega] at this
      have hr : List.range P.size = List.range' 0 P.size := List.range_eq_range'
      unfold seqRun
      rw [hr]
      rcases key P.size 0 P.init with ⟨s, hs⟩ | ⟨e, i, s, hi, hb, hs⟩
      · rw [show List.range 0 = [] from rfl] at hs
        rw [hs, Nat.zero_add]
        cases hp : P.hasPost
        · exact ⟨⟨P.size, Nat.le_refl _, .refl _⟩, fun e he => by simp at he⟩
        · refine ⟨⟨P.size, Nat.le_refl _, .refl _⟩, fun e he => .inr ⟨rfl, g, s, ?_⟩⟩
          simpa using he
      · rw [show List.range 0 = [] from rfl] at hs
        rw [hs]
        refine ⟨⟨i + 1, by omega, .refl _⟩, fun e' he => .inl ⟨i, by simp, s, ?_⟩⟩
        simp only [List.mem_singleton] at he
        rw [he]; exact hb
    · rw [if_neg h1] at h
      obtain ⟨k, c, hex, hd, rfl⟩ := h
      have ho := own_exec hex
      refine ⟨⟨c.owner.length, by rw [ho.len]; exact Nat.min_le_right _ _, ?_⟩, ?_⟩
      · refine (List.perm_ext_iff_of_nodup ho.nodup List.nodup_range).2 fun i => ?_
        rw [List.mem_range]
        refine ⟨ho.logLt i, fun hi => (ho.cover i hi).resolve_right ?_⟩
        rintro ⟨t, s, ht, hp⟩
        rw [hd t ht] at hp; cases hp
      · show ∀ e ∈ c.thrown, (∃ i ∈ c.log, ∃ s, P.body i s = .error e) ∨ _
        clear hd ho
        induction hex with
        | nil => intro e he; cases he
        | snoc hx ht hst ih =>
          have up : ∀ {l : List Nat} {e : E} {i : Nat}, ((∃ i ∈ l, ∃ s, P.body i s = .error e) ∨ (P.hasPost = true ∧ ∃ g s, (P.post g s).2 = some e)) →
              (∃ j ∈ l ++ [i], ∃ s, P.body j s = .error e) ∨ (P.hasPost = true ∧ ∃ g s, (P.post g s).2 = some e) :=
            fun h => h.imp_left fun ⟨i, hi, k⟩ => ⟨i, List.mem_append_left _ hi, k⟩
          intro e he
          cases hst with
          | runOk _ _ => exact up (ih e he)
          | runThrow _ hb =>
            rcases List.mem_append.1 he with he | he
            · exact up (ih e he)
            · rw [List.mem_singleton] at he; subst he
              exact .inl ⟨_, by simp, _, hb⟩
          | postThrow hp hb =>
            rcases List.mem_append.1 he with he | he
            · exact ih e he
            · rw [List.mem_singleton] at he; subst he
              exact .inr ⟨((loc_exec hx).post _ _ (.inr hp)).2, _, _, by rw [hb]⟩
          | _ => exact ih e he

/-- If no exception leaves the loop, the body returned normally for every element. -/
theorem C14_success (P : Params S E G) {configured hardware : Nat} (hc : 1 ≤ configured) {g : G} {r : Result E G}
    (h : Returns P configured hardware g r) (he : r.exc = none) : ∀ i, i < P.size → ∃ s s', P.body i s = .ok s' := by
  obtain ⟨c1, -, -, c2⟩ := C14_exceptions P hc h
  have ht := c1.1 he
  have hl := c2 he
  suffices hs : ∀ i ∈ r.log, (∃ s s', P.body i s = .ok s') ∨ r.thrown ≠ [] by
    intro i hi
    rcases hs i (hl.mem_iff.2 (List.mem_range.2 hi)) with h | h
    · exact h
    · exact absurd ht h
  unfold Returns at h
  by_cases h0 : P.size = 0
  · rw [if_pos h0] at h; subst h; intro i hi; cases hi
  · rw [if_neg h0] at h
    dsimp only at h
    by_cases h1 : numThreads P.hasPost configured hardware P.size = 1
    · rw [if_pos h1] at h; subst h
      have key : ∀ (l : List Nat) (s : S) (log : List Nat), (∀ i ∈ log, ∃ s s', P.body i s = .ok s') → ∀ s' log', seqLoop P l s log = (.ok s', log') → ∀ i ∈ log', ∃ s s', P.body i s = .ok s' := by
        intro l
        induction l with
        | nil => intro s log hlog s' log' e; cases e; exact hlog
        | cons i is ih =>
          intro s log hlog s' log' e
          simp only [seqLoop] at e
          split at e
          · rename_i s1 hb
            refine ih s1 _ ?_ _ _ e
            intro j hj
            rcases List.mem_append.1 hj with hj | hj
            · exact hlog j hj
            · simp only [List.mem_cons, List.not_mem_nil, or_false] at hj; subst hj; exact ⟨_, _, hb⟩
          · cases e
      intro i hi
      unfold seqRun at hi he ⊢
      split at hi
      · rename_i s log e
        left
        refine key _ _ _ (by simp) _ _ e i ?_
        split at hi <;> exact hi
      · rename_i e' log e
        right; simp
    · rw [if_neg h1] at h
      obtain ⟨k, c, hex, -, rfl⟩ := h
      show ∀ i ∈ c.log, (∃ s s', P.body i s = .ok s') ∨ c.thrown ≠ []
      clear c1 c2 ht hl he
      induction hex with
      | nil => intro i hi; cases hi
      | snoc _ _ hst ih =>
        intro i hi
        cases hst with
        | runOk _ hb =>
          rcases List.mem_append.1 hi with hi | hi
          · exact ih i hi
          · simp only [List.mem_cons, List.not_mem_nil, or_false] at hi; subst hi; exact Or.inl ⟨_, _, hb⟩
        | runThrow _ hb => right; simp
        | postThrow _ hb => right; simp
        | _ => exact ih i hi

/-- **Termination.** Every execution has at most `3·size + 6·threads` steps; as long as some thread is not finished, some thread
can step (no deadlock); so every partial execution can be completed, and the loop has a result. -/
theorem C15_terminates (P : Params S E G) (n : Nat) (g : G) {k : Nat} {c : Cfg S E G} (h : Exec P n g k c) :
    k ≤ 3 * P.size + 6 * n ∧ (¬ AllDone n c → ∃ t c', t < n ∧ Step P t c c') := by
  refine ⟨?_, progress h⟩
  have := measure_exec h; omega

theorem C15_has_result (P : Params S E G) (configured hardware : Nat) (g : G) : ∃ r, Returns P configured hardware g r := by
  unfold Returns
  by_cases h0 : P.size = 0
  · exact ⟨⟨g, [], [], none⟩, by rw [if_pos h0]⟩
  · by_cases h1 : numThreads P.hasPost configured hardware P.size = 1
    · exact ⟨seqRun P g, by rw [if_neg h0]; simp [h1]⟩
    · obtain ⟨k, c, hex, hd⟩ := exec_complete (Exec.nil (P := P) (n := numThreads P.hasPost configured hardware P.size) (g := g))
      exact ⟨⟨c.acc, c.log, c.thrown, c.exc⟩, by rw [if_neg h0]; simp only; rw [if_neg h1]; exact ⟨k, c, hex, hd, rfl⟩⟩

/-- A loop over three elements collecting `[i, i+10]`. -/
def exampleLoop : Params (List Nat) String (List Nat) := ⟨3, [], fun i s => .ok (s ++ [i, i + 10]), true, fun g s => (g ++ s, none)⟩

example : ∃ r, Returns exampleLoop 2 8 [] r ∧ r.acc.Perm [0, 10, 1, 11, 2, 12] := by
  obtain ⟨r, h⟩ := C15_has_result exampleLoop 2 8 []
  exact ⟨r, h, (C13_collect 3 (fun i => [i, i + 10]) (by decide) h).2⟩

/-- **Race freedom** (`_partial`): if neither bodies nor merges throw, no thread ever reads `exception_ptr` while another one is
writing it, and at most one thread executes `post` at a time (the latter in every execution).  Missing for the full claim: see the next theorem. -/
theorem C66_no_race_partial (P : Params S E G) (n : Nat) (g : G) {k : Nat} {c : Cfg S E G} (h : Exec P n g k c) :
    (∀ t u s s', c.pc t = .inPost s → c.pc u = .inPost s' → t = u) ∧
    ((∀ i s, i < P.size → ∃ s', P.body i s = .ok s') → (∀ g s, (P.post g s).2 = none) →
      ¬ ∃ t u s e, c.pc t = .check s ∧ c.pc u = .inCatch e) := by
  refine ⟨?_, ?_⟩
  · intro t u s s' h1 h2
    have hl := lock_exec h
    have a := hl.holder t (by rw [h1]; rfl)
    have b := hl.holder u (by rw [h2]; rfl)
    rw [a] at b; simpa using b
  · rintro hb hp ⟨t, u, s, e, -, h2⟩
    have he := exc_exec h
    rcases he.src e (he.caught u e (by rw [h2]; rfl)) with ⟨i, s, hi, h⟩ | ⟨_, g, s, h⟩
    · obtain ⟨s', hs⟩ := hb i s hi; rw [hs] at h; cases h
    · rw [hp] at h; cases h

/-- A loop over two elements whose second body throws. -/
def racyLoop : Params Unit String Unit := ⟨2, (), fun i _ => if i = 1 then .error "boom" else .ok (), true, fun g _ => (g, none)⟩

/-- **The race exists**: when a body throws, one thread can be about to read `exception_ptr` without the lock while another one is
about to write it.  (Two threads, two elements.) -/
theorem C66_race_reachable : ∃ k c, Exec racyLoop 2 () k c ∧ c.pc 0 = .check () ∧ c.pc 1 = .inCatch "boom" ∧ c.exc = none := by
  have h1 := Exec.snoc (Exec.nil (P := racyLoop) (n := 2) (g := ())) (t := 0) (by decide) (.start rfl)
  have h2 := Exec.snoc h1 (t := 0) (by decide) (.fetch (s := ()) rfl (by decide))
  have h3 := Exec.snoc h2 (t := 1) (by decide) (.start rfl)
  have h4 := Exec.snoc h3 (t := 1) (by decide) (.fetch (s := ()) rfl (by decide))
  have h5 := Exec.snoc h4 (t := 1) (by decide) (.runThrow (i := 1) (s := ()) (e := "boom") rfl rfl)
  have h6 := Exec.snoc h5 (t := 1) (by decide) (.lockCatch (e := "boom") rfl rfl)
  have h7 := Exec.snoc h6 (t := 0) (by decide) (.runOk (i := 0) (s := ()) (s' := ()) rfl rfl)
  exact ⟨_, _, h7, rfl, rfl, rfl⟩

/-- The same loop ends by throwing "boom", under every schedule. -/
example : ∃ r, Returns racyLoop 2 2 () r ∧ (∀ e, r.exc = some e → e ∈ r.thrown) := by
  obtain ⟨r, h⟩ := C15_has_result racyLoop 2 2 ()
  exact ⟨r, h, (C14_exceptions racyLoop (by decide) h).2.1⟩

/-- Five elements, the third one fails; with one thread, the first three were visited, whatever the schedule of more threads some beginning with it. -/
def failingLoop : Params Nat String Unit := ⟨5, 0, fun i s => if i = 2 then .error "no" else .ok (s + i), true, fun g _ => (g, none)⟩
example : seqRun failingLoop () = ⟨(), [0, 1, 2], ["no"], some "no"⟩ := rfl
example (k : Nat) (hk : 1 ≤ k) (r : Result String Unit) (h : Returns failingLoop k 8 () r) (e : r.exc ≠ none) : ∃ m ≤ 5, 2 < m ∧ r.log.Perm (List.range m) := by
  obtain ⟨⟨m, hm, hp⟩, ht⟩ := C14_visited failingLoop h
  obtain ⟨e', he⟩ := Option.ne_none_iff_exists'.1 e
  refine ⟨m, hm, ?_, hp⟩
  rcases ht e' ((C14_exceptions failingLoop hk h).2.1 e' he) with ⟨i, hi, s, hb⟩ | ⟨-, g, s, hb⟩
  · have : i = 2 := by
      by_contra hne
      simp only [failingLoop, if_neg hne] at hb; cases hb
    subst this
    exact List.mem_range.1 (hp.mem_iff.1 hi)
  · simp [failingLoop] at hb

end Kigumi.Props
