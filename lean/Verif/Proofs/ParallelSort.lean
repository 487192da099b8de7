import Verif.Model.ParallelSort
import Verif.Tactics
import Mathlib.Tactic.Ring
import Mathlib.Tactic.Linarith
import Mathlib.Algebra.Order.Ring.Nat

/-! Invariants of the parallel sort. -/
namespace Kigumi.ParallelSort
open Kigumi

variable {α : Type} {lt : α → α → Prop} {size n : Nat}

/-- The entries at positions `lo ≤ i < hi` are sorted. -/
def Seg (lt : α → α → Prop) (arr : List α) (lo hi : Nat) : Prop :=
  ∀ i j x y, lo ≤ i → i < j → j < hi → arr[i]? = some x → arr[j]? = some y → ¬ lt y x

theorem Seg.mono {arr : List α} {lo hi lo' hi' : Nat} (h : Seg lt arr lo hi) (h1 : lo ≤ lo') (h2 : hi' ≤ hi) :
    Seg lt arr lo' hi' := fun i j x y hi hij hj => h i j x y (by omega) hij (by omega)

theorem sorted_iff_seg {l : List α} : Sorted lt l ↔ Seg lt l 0 l.length := by
  unfold Sorted Seg
  rw [List.pairwise_iff_getElem]
  constructor
  · intro h i j x y _ hij hj hx hy
    rw [List.getElem?_eq_some_iff] at hx hy
    obtain ⟨h1, rfl⟩ := hx; obtain ⟨h2, rfl⟩ := hy
    exact h i j h1 h2 hij
  · intro h i j hi hj hij
    exact h i j _ _ (by omega) hij hj (List.getElem?_eq_getElem hi) (List.getElem?_eq_getElem hj)

theorem seg_mid {A B C : List α} (hB : Sorted lt B) : Seg lt (A ++ B ++ C) A.length (A ++ B).length := by
  rw [sorted_iff_seg] at hB
  intro i j x y hi hij hj hx hy
  rw [List.getElem?_append_left (by omega), List.getElem?_append_right (by omega)] at hx
  rw [List.getElem?_append_left hj, List.getElem?_append_right (by omega)] at hy
  rw [List.length_append] at hj
  exact hB (i - A.length) (j - A.length) x y (by omega) (by omega) (by omega) hx hy

theorem sorted_of_seg {A B C : List α} (h : Seg lt (A ++ B ++ C) A.length (A ++ B).length) : Sorted lt B := by
  rw [sorted_iff_seg]
  intro i j x y _ hij hj hx hy
  refine h (A.length + i) (A.length + j) x y (by omega) (by omega) (by rw [List.length_append]; omega) ?_ ?_
  · rw [List.getElem?_append_left (by rw [List.length_append]; omega), List.getElem?_append_right (by omega)]
    simpa using hx
  · rw [List.getElem?_append_left (by rw [List.length_append]; omega), List.getElem?_append_right (by omega)]
    simpa using hy

theorem get_outside {A B B' C : List α} (hl : B'.length = B.length) {i : Nat} (h : i < A.length ∨ (A ++ B).length ≤ i) :
    (A ++ B' ++ C)[i]? = (A ++ B ++ C)[i]? := by
  rw [List.length_append] at h
  by_cases hi : i < A.length
  · rw [List.append_assoc, List.append_assoc, List.getElem?_append_left hi, List.getElem?_append_left hi]
  · rw [List.getElem?_append_right (by rw [List.length_append]; omega), List.getElem?_append_right (by rw [List.length_append]; omega)]
    simp only [List.length_append, hl]

theorem seg_outside {A B B' C : List α} (hl : B'.length = B.length) {lo hi : Nat}
    (hd : hi ≤ A.length ∨ (A ++ B).length ≤ lo) (h : Seg lt (A ++ B ++ C) lo hi) : Seg lt (A ++ B' ++ C) lo hi := by
  intro i j x y hi' hij hj hx hy
  rw [get_outside hl (by omega)] at hx hy
  exact h i j x y hi' hij hj hx hy

theorem part_mono {s t : Nat} (h : s ≤ t) : part size n s ≤ part size n t := by
  unfold part
  split
  · split
    · exact Nat.mul_le_mul_right _ h
    · calc s * (size / n) ≤ n * (size / n) := Nat.mul_le_mul_right _ (by omega)
        _ ≤ size := Nat.mul_div_le size n
  · split
    · omega
    · exact le_rfl

/-- Aligned blocks are nested or disjoint. -/
theorem aligned {j k t t' : Nat} (hjk : j ≤ k) (ht : t % 2 ^ j = 0) (ht' : t' % 2 ^ k = 0) :
    t' + 2 ^ k ≤ t ∨ t + 2 ^ j ≤ t' ∨ (t' ≤ t ∧ t + 2 ^ j ≤ t' + 2 ^ k) := by
  obtain ⟨a, rfl⟩ := Nat.dvd_of_mod_eq_zero ht
  obtain ⟨b, rfl⟩ := Nat.dvd_of_mod_eq_zero ht'
  obtain ⟨m, rfl⟩ := Nat.exists_eq_add_of_le hjk
  have e : 2 ^ (j + m) * b = 2 ^ j * (2 ^ m * b) := by rw [Nat.pow_add]; ring
  have e2 : 2 ^ (j + m) = 2 ^ j * 2 ^ m := Nat.pow_add ..
  rw [e, e2]
  generalize 2 ^ m * b = b'
  generalize 2 ^ m = M
  generalize 2 ^ j = D
  by_cases h1 : b' + M ≤ a
  · left; calc D * b' + D * M = D * (b' + M) := by ring
      _ ≤ D * a := Nat.mul_le_mul_left _ h1
  · by_cases h2 : a + 1 ≤ b'
    · right; left; calc D * a + D = D * (a + 1) := by ring
        _ ≤ D * b' := Nat.mul_le_mul_left _ h2
    · right; right
      refine ⟨Nat.mul_le_mul_left _ (by omega), ?_⟩
      calc D * a + D = D * (a + 1) := by ring
        _ ≤ D * (b' + M) := Nat.mul_le_mul_left _ (by omega)
        _ = D * b' + D * M := by ring

structure Inv (lt : α → α → Prop) (n : Nat) (xs : List α) (c : Cfg α) : Prop where
  perm : c.arr.Perm xs
  ub : c.ub = false
  seg : ∀ t j, t < n → j + 1 ≤ c.phase t → t % 2 ^ j = 0 →
    Seg lt c.arr (part xs.length n t) (part xs.length n (min (t + 2 ^ j) n))
  sync : ∀ t u, t < n → u < n → c.phase t ≤ c.phase u + 1

/-- Rearranging the block of thread `t'` at level `k` so that it becomes sorted keeps all smaller or equal blocks sorted. -/
theorem seg_update {xs : List α} {A B B' C : List α} {t t' j k : Nat} (ht : t < n) (ht' : t' < n) (hjk : j ≤ k) (h1 : t % 2 ^ j = 0)
    (h2 : t' % 2 ^ k = 0) (hA : A.length = part xs.length n t') (hB : (A ++ B).length = part xs.length n (min (t' + 2 ^ k) n))
    (hp : B'.Perm B) (hs : Sorted lt B')
    (h : (t' ≤ t ∧ t + 2 ^ j ≤ t' + 2 ^ k) ∨ Seg lt (A ++ B ++ C) (part xs.length n t) (part xs.length n (min (t + 2 ^ j) n))) :
    Seg lt (A ++ B' ++ C) (part xs.length n t) (part xs.length n (min (t + 2 ^ j) n)) := by
  have hl := hp.length_eq
  have hin : t' ≤ t ∧ t + 2 ^ j ≤ t' + 2 ^ k →
      Seg lt (A ++ B' ++ C) (part xs.length n t) (part xs.length n (min (t + 2 ^ j) n)) := by
    rintro ⟨a, b⟩
    apply (seg_mid (A := A) (C := C) hs).mono
    · rw [hA]; exact part_mono a
    · have : (A ++ B').length = (A ++ B).length := by simp [hl]
      rw [this, hB]; exact part_mono (by omega)
  rcases h with h | h
  · exact hin h
  rcases aligned hjk h1 h2 with h3 | h3 | h3
  · exact seg_outside hl (Or.inr (by rw [hB]; exact part_mono (by omega))) h
  · exact seg_outside hl (Or.inl (by rw [hA]; exact part_mono (by omega))) h
  · exact hin h3

theorem sync_step {c : Cfg α} {t : Nat} (hb : Barrier n c (c.phase t))
    (h : ∀ t u, t < n → u < n → c.phase t ≤ c.phase u + 1) :
    ∀ u v, u < n → v < n → advance c.phase t u ≤ advance c.phase t v + 1 := by
  intro u v hu hv
  unfold advance
  have h1 := h u v hu hv
  have h2 := hb v hv
  split <;> split <;> rename_i e1 e2
  · subst e1; omega
  · subst e1; omega
  · subst e2; omega
  · omega

theorem inv_step {xs : List α} {c c' : Cfg α} {t : Nat} (ht : t < n) (h : Inv lt n xs c) (st : Step lt xs.length n t c c') :
    Inv lt n xs c' := by
  obtain ⟨h1, h2, h3, h4⟩ := h
  cases st with
  | @sort A B C B' hp harr hA hB hperm hs =>
    refine ⟨?_, h2, ?_, sync_step (by intro u hu; omega) h4⟩
    · refine List.Perm.trans ?_ h1
      rw [harr]; exact (hperm.append_left A).append_right C
    · intro u j hu hj hm
      have hb1 : part xs.length n (t + 1) = part xs.length n (min (t + 2 ^ 0) n) := by
        congr 1; omega
      rw [hb1] at hB
      simp only [advance] at hj
      have hj0 : j = 0 := by
        split at hj
        · subst u; omega
        · have := h4 u t hu ht; omega
      subst hj0
      refine seg_update hu ht le_rfl hm (by simp [Nat.mod_one]) hA hB hperm hs ?_
      by_cases hut : u = t
      · left; omega
      · right
        rw [if_neg hut] at hj
        rw [← harr]; exact h3 u 0 hu hj hm
  | @skip k hp hk hb hm =>
    refine ⟨h1, h2, ?_, sync_step (by rw [hp]; exact hb) h4⟩
    intro u j hu hj hmu
    simp only [advance] at hj
    split at hj
    · subst u
      rw [hp] at hj
      by_cases hj' : j = k + 1
      · subst hj'; rw [Nat.pow_succ, Nat.mul_comm] at hmu; exact absurd hmu hm
      · exact h3 t j hu (by omega) hmu
    · exact h3 u j hu hj hmu
  | @merge k A B B2 C B' hp hk hb hm harr hA hB hB2 hs1 hs2 hperm hs =>
    refine ⟨?_, h2, ?_, sync_step (by rw [hp]; exact hb) h4⟩
    · refine List.Perm.trans ?_ h1
      rw [harr]; exact (hperm.append_left A).append_right C
    · intro u j hu hj hmu
      have hm' : t % 2 ^ (k + 1) = 0 := by rw [Nat.pow_succ, Nat.mul_comm]; exact hm
      have hB2' : (A ++ (B ++ B2)).length = part xs.length n (min (t + 2 ^ (k + 1)) n) := by
        rw [hB2]; congr 2; ring
      simp only [advance] at hj
      have hjk : j ≤ k + 1 := by
        split at hj
        · subst u; omega
        · have := h4 u t hu ht; omega
      refine seg_update hu ht hjk hmu hm' hA hB2' hperm hs ?_
      by_cases hut : u = t ∧ j = k + 1
      · left; rw [hut.1, hut.2]; exact ⟨le_rfl, le_rfl⟩
      · right
        rw [← harr]
        apply h3 u j hu _ hmu
        split at hj
        · subst u; omega
        · exact hj
  | @mergeBad k A B B2 C hp hk hb hm harr hA hB hB2 hbad =>
    exfalso
    apply hbad
    have hm0 : t % 2 ^ k = 0 := by
      have := Nat.dvd_of_mod_eq_zero hm
      exact Nat.mod_eq_zero_of_dvd (Nat.dvd_trans (Dvd.intro_left 2 rfl) this)
    constructor
    · have := h3 t k ht (by omega) hm0
      rw [harr, ← hA, ← hB] at this
      apply sorted_of_seg (A := A) (C := B2 ++ C)
      simpa using this
    · by_cases hlt : t + 2 ^ k < n
      · have := h3 (t + 2 ^ k) k hlt (by have := hb (t + 2 ^ k) hlt; omega) (by rw [Nat.add_mod_right]; exact hm0)
        have e1 : min (t + 2 ^ k) n = t + 2 ^ k := by omega
        have e2 : t + 2 ^ k + 2 ^ k = t + 2 * 2 ^ k := by omega
        rw [e1] at hB
        rw [harr, e2, ← hB, ← hB2] at this
        apply sorted_of_seg (A := A ++ B) (C := C)
        simpa using this
      · have e1 : min (t + 2 ^ k) n = min (t + 2 * 2 ^ k) n := by omega
        rw [e1, ← hB2] at hB
        simp at hB
        subst hB; exact List.Pairwise.nil

theorem inv_exec {xs : List α} {k : Nat} {c : Cfg α} (h : Exec lt n xs k c) : Inv lt n xs c := by
  induction h with
  | nil => exact ⟨.refl _, rfl, by intro t j _ h; simp at h, by intros; simp⟩
  | snoc _ ht st ih => exact inv_step ht ih st

theorem final_sorted {xs : List α} {k : Nat} {c : Cfg α} (h : Exec lt n xs k c) (hn : 0 < n) (hd : AllDone n c) :
    c.ub = false ∧ c.arr.Perm xs ∧ Sorted lt c.arr := by
  have inv := inv_exec h
  refine ⟨inv.ub, inv.perm, ?_⟩
  obtain ⟨h1, h2⟩ := hd 0 hn
  have := inv.seg 0 (c.phase 0 - 1) hn (by omega) (by simp)
  rw [sorted_iff_seg]
  have e1 : part xs.length n 0 = 0 := by simp [part, hn]
  have e2 : min (0 + 2 ^ (c.phase 0 - 1)) n = n := by omega
  have e3 : part xs.length n n = xs.length := by simp [part]
  rw [e1, e2, e3, ← inv.perm.length_eq] at this
  exact this

/-! ### Progress -/

theorem exists_min (n : Nat) (hn : 0 < n) (f : Nat → Nat) : ∃ t, t < n ∧ ∀ u, u < n → f t ≤ f u := by
  induction n with
  | zero => omega
  | succ n ih =>
    by_cases h0 : n = 0
    · subst h0; exact ⟨0, by omega, fun u hu => by have : u = 0 := by omega
                                                   subst this; exact le_rfl⟩
    · obtain ⟨t, ht, hmin⟩ := ih (by omega)
      by_cases hc : f t ≤ f n
      · refine ⟨t, by omega, fun u hu => ?_⟩
        by_cases hun : u = n
        · subst hun; exact hc
        · exact hmin u (by omega)
      · refine ⟨n, by omega, fun u hu => ?_⟩
        by_cases hun : u = n
        · subst hun; exact le_rfl
        · have := hmin u (by omega); omega

theorem split3 (l : List α) {a b : Nat} (hab : a ≤ b) (hb : b ≤ l.length) :
    ∃ A B C, l = A ++ B ++ C ∧ A.length = a ∧ (A ++ B).length = b := by
  refine ⟨l.take a, (l.drop a).take (b - a), (l.drop a).drop (b - a), ?_, ?_, ?_⟩
  · rw [List.append_assoc, List.take_append_drop, List.take_append_drop]
  · rw [List.length_take]; omega
  · simp [List.length_take, List.length_drop]; omega

theorem part_le (t : Nat) : part size n t ≤ size := by
  unfold part; split
  · calc t * (size / n) ≤ n * (size / n) := Nat.mul_le_mul_right _ (by omega)
      _ ≤ size := Nat.mul_div_le size n
  · exact le_rfl

theorem progress (hsort : ∀ l : List α, ∃ l', l'.Perm l ∧ Sorted lt l') {xs : List α} {k : Nat} {c : Cfg α}
    (h : Exec lt n xs k c) (hnd : ¬ AllDone n c) : ∃ t c', t < n ∧ Step lt xs.length n t c c' := by
  have inv := inv_exec h
  have hn : 0 < n := by
    by_contra h0
    exact hnd (fun t ht => by omega)
  obtain ⟨t, ht, hmin⟩ := exists_min n hn c.phase
  have hlen : c.arr.length = xs.length := inv.perm.length_eq
  have hnf : ¬ Finished n (c.phase t) := by
    intro hf
    apply hnd
    intro u hu
    refine ⟨Nat.le_trans hf.1 (hmin u hu), Nat.le_trans hf.2 (Nat.pow_le_pow_right (by omega) ?_)⟩
    have := hmin u hu; omega
  rcases hk : c.phase t with _ | k
  · obtain ⟨A, B, C, e, hA, hB⟩ := split3 c.arr (a := part xs.length n t) (b := part xs.length n (t + 1)) (part_mono (by omega))
      (by rw [hlen]; exact part_le _)
    obtain ⟨B', hp, hs⟩ := hsort B
    exact ⟨t, _, ht, .sort hk e hA hB hp hs⟩
  · have hpos : 0 < 2 ^ k := Nat.two_pow_pos k
    have hlt : 2 ^ k < n := by
      by_contra hc
      apply hnf
      rw [hk]; exact ⟨by omega, by simpa using hc⟩
    have hb : Barrier n c (k + 1) := fun u hu => by have := hmin u hu; omega
    by_cases hm : t % (2 * 2 ^ k) = 0
    · obtain ⟨A, B, C, e, hA, hB⟩ := split3 c.arr (a := part xs.length n t) (b := part xs.length n (min (t + 2 ^ k) n))
        (part_mono (by omega)) (by rw [hlen]; exact part_le _)
      have hle : part xs.length n (min (t + 2 ^ k) n) ≤ part xs.length n (min (t + 2 * 2 ^ k) n) := part_mono (by omega)
      have hC : (A ++ B ++ C).length = xs.length := by rw [← e, hlen]
      obtain ⟨B2, C1, C2, e2, hB2, hC2⟩ := split3 C (a := part xs.length n (min (t + 2 * 2 ^ k) n) - part xs.length n (min (t + 2 ^ k) n))
        (b := C.length) (by
          have h1 := part_le (size := xs.length) (n := n) (min (t + 2 * 2 ^ k) n)
          rw [List.length_append, hB] at hC; omega) le_rfl
      have e' : c.arr = A ++ (B ++ B2) ++ (C1 ++ C2) := by rw [e, e2]; simp
      have hB2' : (A ++ (B ++ B2)).length = part xs.length n (min (t + 2 * 2 ^ k) n) := by
        rw [← List.append_assoc, List.length_append, hB, hB2]; omega
      by_cases hs : Sorted lt B ∧ Sorted lt B2
      · obtain ⟨B', hp, hs'⟩ := hsort (B ++ B2)
        exact ⟨t, _, ht, .merge hk hlt hb hm e' hA hB hB2' hs.1 hs.2 hp hs'⟩
      · exact ⟨t, _, ht, .mergeBad hk hlt hb hm e' hA hB hB2' hs⟩
    · exact ⟨t, _, ht, .skip hk hlt hb hm⟩

def total (n : Nat) (f : Nat → Nat) : Nat := ((List.range n).map f).sum

theorem total_advance {t : Nat} (ht : t < n) (f : Nat → Nat) : total n (advance f t) = total n f + 1 := by
  unfold total
  induction n with
  | zero => omega
  | succ n ih =>
    simp only [List.range_succ, List.map_append, List.sum_append, List.map_cons, List.map_nil, List.sum_cons, List.sum_nil]
    by_cases htn : t = n
    · subst htn
      have : (List.range t).map (advance f t) = (List.range t).map f := by
        apply List.map_congr_left; intro u hu; rw [List.mem_range] at hu
        have : u ≠ t := by omega
        simp [advance, this]
      rw [this]; simp [advance]; omega
    · have := ih (by omega)
      have hn : advance f t n = f n := by simp [advance, Ne.symm htn]
      rw [hn]; omega

theorem step_phase {c c' : Cfg α} {t : Nat} (st : Step lt size n t c c') : c'.phase = advance c.phase t ∧ (0 < n → c.phase t + 1 ≤ n + 1) := by
  cases st with
  | sort h => exact ⟨rfl, fun _ => by omega⟩
  | @skip k h hk =>
    refine ⟨rfl, fun _ => ?_⟩
    have : k < 2 ^ k := Nat.lt_two_pow_self
    omega
  | @merge k _ _ _ _ _ h hk =>
    refine ⟨rfl, fun _ => ?_⟩
    have : k < 2 ^ k := Nat.lt_two_pow_self
    omega
  | @mergeBad k _ _ _ _ h hk =>
    refine ⟨rfl, fun _ => ?_⟩
    have : k < 2 ^ k := Nat.lt_two_pow_self
    omega

theorem total_le {n b : Nat} {f : Nat → Nat} (h : ∀ t, t < n → f t ≤ b) : total n f ≤ n * b := by
  unfold total
  induction n with
  | zero => simp
  | succ n ih =>
    simp only [List.range_succ, List.map_append, List.sum_append, List.map_cons, List.map_nil, List.sum_cons, List.sum_nil]
    have := ih (fun t ht => h t (by omega))
    have := h n (by omega)
    have : (n + 1) * b = n * b + b := by ring
    omega

theorem steps_bound {xs : List α} {k : Nat} {c : Cfg α} (h : Exec lt n xs k c) : k = total n c.phase ∧ ∀ t, t < n → c.phase t ≤ n + 1 := by
  induction h with
  | nil => refine ⟨?_, fun _ _ => by simp⟩
           unfold total; simp
  | snoc h ht st ih =>
    obtain ⟨e, hb⟩ := step_phase st
    rw [e]
    refine ⟨by rw [total_advance ht, ih.1], fun u hu => ?_⟩
    unfold advance; split
    · subst u; exact hb (by omega)
    · exact ih.2 u hu

theorem exec_complete (hsort : ∀ l : List α, ∃ l', l'.Perm l ∧ Sorted lt l') {xs : List α} {k : Nat} {c : Cfg α}
    (h : Exec lt n xs k c) : ∃ k' c', Exec lt n xs k' c' ∧ AllDone n c' := by
  generalize hm : n * (n + 1) - k = m
  induction m using Nat.strongRecOn generalizing k c with
  | _ m ih =>
    by_cases hd : AllDone n c
    · exact ⟨k, c, h, hd⟩
    · obtain ⟨t, c', ht, st⟩ := progress hsort h hd
      have h' := Exec.snoc h ht st
      have hb := steps_bound h'
      have := total_le hb.2
      exact ih (n * (n + 1) - (k + 1)) (by omega) h' rfl

end Kigumi.ParallelSort
