import Verif.Spec.Classification
import Verif.Spec.Angles
import Mathlib.Tactic.Linarith
import Mathlib.Tactic.Push

/-! # Regions given by directions, and the flags of the gaps between sorted faces -/
namespace Kigumi.Germ
open Kigumi Real

theorem eps_list (L : List ℝ) : ∃ ε : ℝ, 0 < ε ∧ ∀ t ∈ L, t ≠ 0 → 2 * ε < |t| := by
  induction L with
  | nil => exact ⟨1, one_pos, by simp⟩
  | cons a L ih =>
    obtain ⟨ε, he, h⟩ := ih
    by_cases ha : a = 0
    · refine ⟨ε, he, ?_⟩
      intro t ht hn
      rcases List.mem_cons.1 ht with rfl | ht
      · exact absurd ha hn
      · exact h t ht hn
    · have hp := abs_pos.2 ha
      refine ⟨min ε (|a| / 4), lt_min he (by linarith), ?_⟩
      intro t ht hn
      rcases List.mem_cons.1 ht with rfl | ht
      · have := min_le_right ε (|t| / 4); linarith
      · have h1 := h t ht hn
        have := min_le_left ε (|a| / 4); linarith

theorem eps_family (m : Nat) (e : Nat → ℝ) (h : ∀ i, i < m → 0 < e i) : ∃ ε : ℝ, 0 < ε ∧ ∀ i, i < m → ε < e i := by
  induction m with
  | zero => exact ⟨1, one_pos, by simp⟩
  | succ m ih =>
    obtain ⟨ε, he, h1⟩ := ih (fun i hi => h i (by omega))
    have hm := h m (by omega)
    refine ⟨min ε (e m / 2), lt_min he (by linarith), ?_⟩
    intro i hi
    by_cases hi' : i = m
    · subst hi'
      have := min_le_right ε (e i / 2); linarith
    · have h2 := h1 i (by omega)
      have := min_le_left ε (e m / 2); linarith

/-- The index level version of the hypotheses about the regions. -/
structure Germ (m : Nat) (θ : Nat → ℝ) (owner ccw : Nat → Bool) (In : Bool → ℝ → Bool) : Prop where
  range : ∀ i, i < m → 0 ≤ θ i ∧ θ i < 2 * π
  sorted : ∀ i j, i ≤ j → j < m → θ i ≤ θ j
  periodic : ∀ x φ, In x (φ + 2 * π) = In x φ
  const : ∀ x α β, α ≤ β → (∀ i, i < m → owner i = x → ∀ k : ℤ, ¬ (α ≤ θ i + 2 * π * k ∧ θ i + 2 * π * k ≤ β)) → In x α = In x β
  cross : ∀ i, i < m → ∃ ε, 0 < ε ∧ ∀ δ, 0 < δ → δ < ε → In (owner i) (θ i - δ) = ccw i ∧ In (owner i) (θ i + δ) = !ccw i
  once : ∀ i j, i < m → j < m → owner i = owner j → θ i = θ j → i = j

variable {m : Nat} {θ : Nat → ℝ} {owner ccw : Nat → Bool} {In : Bool → ℝ → Bool}

/-- A step that is smaller than half of all differences between directions. -/
theorem exists_step (h : Germ m θ owner ccw In) : ∃ ε, 0 < ε ∧ ε < π / 4 ∧
    (∀ i j, i < m → j < m → ∀ k : ℤ, θ i - θ j + 2 * π * k ≠ 0 → 2 * ε < |θ i - θ j + 2 * π * k|) ∧
    ∀ i, i < m → In (owner i) (θ i - ε) = ccw i ∧ In (owner i) (θ i + ε) = !ccw i := by
  have hp := pi_pos
  obtain ⟨ε1, p1, h1⟩ := eps_list ((List.range m).flatMap fun i => (List.range m).flatMap fun j => [θ i - θ j, θ i - θ j + 2 * π, θ i - θ j - 2 * π])
  obtain ⟨e, he⟩ := Classical.skolem.1 (fun i : Nat => show ∃ ε : ℝ, i < m → 0 < ε ∧ ∀ δ, 0 < δ → δ < ε → In (owner i) (θ i - δ) = ccw i ∧ In (owner i) (θ i + δ) = !ccw i by
    by_cases hi : i < m
    · obtain ⟨ε, h⟩ := h.cross i hi; exact ⟨ε, fun _ => h⟩
    · exact ⟨0, fun h => absurd h hi⟩)
  obtain ⟨ε2, p2, h2⟩ := eps_family m e (fun i hi => (he i hi).1)
  refine ⟨min (min ε1 ε2) (π / 8), lt_min (lt_min p1 p2) (by linarith), lt_of_le_of_lt (min_le_right _ _) (by linarith), ?_, ?_⟩
  · intro i j hi hj k hk
    have le1 : min (min ε1 ε2) (π / 8) ≤ ε1 := le_trans (min_le_left _ _) (min_le_left _ _)
    have le2 : min (min ε1 ε2) (π / 8) ≤ π / 8 := min_le_right _ _
    obtain ⟨i0, i1⟩ := h.range i hi
    obtain ⟨j0, j1⟩ := h.range j hj
    have mem : ∀ t ∈ [θ i - θ j, θ i - θ j + 2 * π, θ i - θ j - 2 * π], t ≠ 0 → 2 * ε1 < |t| := by
      intro t ht
      apply h1
      simp only [List.mem_flatMap, List.mem_range]
      exact ⟨i, hi, j, hj, ht⟩
    by_cases k0 : k = 0
    · subst k0
      simp only [Int.cast_zero, mul_zero, add_zero] at hk ⊢
      have := mem (θ i - θ j) (by simp) hk
      linarith
    · by_cases k1 : k = 1
      · subst k1
        simp only [Int.cast_one, mul_one] at hk ⊢
        have := mem (θ i - θ j + 2 * π) (by simp) hk
        linarith
      · by_cases k2 : k = -1
        · subst k2
          have e : θ i - θ j + 2 * π * ((-1 : ℤ) : ℝ) = θ i - θ j - 2 * π := by push_cast; ring
          rw [e] at hk ⊢
          have := mem (θ i - θ j - 2 * π) (by simp) hk
          linarith
        · have hk' : (2 : ℝ) ≤ k ∨ (k : ℝ) ≤ -2 := by
            have : 2 ≤ k ∨ k ≤ -2 := by omega
            rcases this with h | h
            · left; exact_mod_cast h
            · right; exact_mod_cast h
          rcases hk' with h | h
          · have : 2 * π * 2 ≤ 2 * π * k := mul_le_mul_of_nonneg_left h (by linarith)
            have := le_abs_self (θ i - θ j + 2 * π * k)
            linarith
          · have : 2 * π * k ≤ 2 * π * (-2) := mul_le_mul_of_nonneg_left h (by linarith)
            have := neg_le_abs (θ i - θ j + 2 * π * k)
            linarith
  · intro i hi
    have p3 : 0 < min (min ε1 ε2) (π / 8) := lt_min (lt_min p1 p2) (by linarith)
    have le1 : min (min ε1 ε2) (π / 8) ≤ ε2 := le_trans (min_le_left _ _) (min_le_right _ _)
    exact (he i hi).2 _ p3 (lt_of_le_of_lt le1 (h2 i hi))

/-- The turn after which a direction lies in a window of length at most one turn. -/
theorem turn {a k : ℝ} (x : ℤ) (hk : k = x) (h0 : 0 ≤ a) (h1 : a < 2 * π) : (k = 0) ∨ (k = 1) ∨ (2 * π * 2 ≤ a + 2 * π * k) ∨ (a + 2 * π * k < 0) := by
  have hp := pi_pos
  subst hk
  by_cases c0 : x = 0
  · left; simp [c0]
  · by_cases c1 : x = 1
    · right; left; simp [c1]
    · right; right
      have : 2 ≤ x ∨ x ≤ -1 := by omega
      rcases this with h | h
      · left
        have h' : (2 : ℝ) ≤ x := by exact_mod_cast h
        have : 2 * π * 2 ≤ 2 * π * x := mul_le_mul_of_nonneg_left h' (by linarith)
        linarith
      · right
        have h' : (x : ℝ) ≤ -1 := by exact_mod_cast h
        have : 2 * π * x ≤ 2 * π * (-1) := mul_le_mul_of_nonneg_left h' (by linarith)
        linarith

theorem regions (h : Germ m θ owner ccw In) : ∃ inside, Spec.TwoRegions m owner ccw inside ∧
    ∀ i, i < m → (∀ j, j < m → owner j ≠ owner i → θ j ≠ θ i) → inside (!owner i) i = In (!owner i) (θ i) := by
  classical
  obtain ⟨ε, p, psmall, sep, cross⟩ := exists_step h
  have hp := pi_pos
  -- the region changes only at its faces: windows
  have same : ∀ x i, i < m → (∀ j, j < m → owner j = x → θ j ≠ θ i) → ∀ a b, -ε ≤ a → a ≤ b → b ≤ ε → In x (θ i + a) = In x (θ i + b) := by
    intro x i hi hno a b ha hab hb
    apply h.const x _ _ (by linarith)
    rintro j hj hx k ⟨h1, h2⟩
    obtain ⟨i0, i1⟩ := h.range i hi
    obtain ⟨j0, j1⟩ := h.range j hj
    have hne : θ j - θ i + 2 * π * k ≠ 0 := by
      intro hz
      have : k = 0 := by
        by_contra hk
        have : 1 ≤ k ∨ k ≤ -1 := by omega
        rcases this with h' | h'
        · have h'' : (1 : ℝ) ≤ k := by exact_mod_cast h'
          have := mul_le_mul_of_nonneg_left h'' (by linarith : 0 ≤ 2 * π)
          linarith
        · have h'' : (k : ℝ) ≤ -1 := by exact_mod_cast h'
          have := mul_le_mul_of_nonneg_left h'' (by linarith : 0 ≤ 2 * π)
          linarith
      subst this
      apply hno j hj hx
      simp at hz; linarith
    have := sep j i hj hi k hne
    rw [lt_abs] at this
    rcases this with h' | h' <;> linarith
  have gap : ∀ x i, i + 1 < m → θ i < θ (i + 1) → In x (θ i + ε) = In x (θ (i + 1) - ε) := by
    intro x i hi hlt
    have hs := sep (i + 1) i hi (by omega) 0 (by simp; linarith)
    simp only [Int.cast_zero, mul_zero, add_zero] at hs
    rw [abs_of_pos (by linarith)] at hs
    apply h.const x _ _ (by linarith)
    rintro j hj - k ⟨h1, h2⟩
    obtain ⟨i0, i1⟩ := h.range i (by omega)
    obtain ⟨j0, j1⟩ := h.range j hj
    obtain ⟨k0, k1⟩ := h.range (i + 1) hi
    rcases turn k rfl j0 j1 with hk | hk | hk | hk
    · rw [hk] at h1 h2
      by_cases hji : j ≤ i
      · have := h.sorted j i hji (by omega); linarith
      · have := h.sorted (i + 1) j (by omega) hj; linarith
    · rw [hk] at h2; linarith
    · linarith
    · linarith
  have wrap : ∀ x, 0 < m → In x (θ (m - 1) + ε) = In x (θ 0 - ε) := by
    intro x hm
    rw [← h.periodic x (θ 0 - ε)]
    obtain ⟨i0, i1⟩ := h.range 0 hm
    obtain ⟨l0, l1⟩ := h.range (m - 1) (by omega)
    have hs := sep 0 (m - 1) hm (by omega) 1 (by simp; linarith)
    simp only [Int.cast_one, mul_one] at hs
    rw [abs_of_pos (by linarith)] at hs
    apply h.const x _ _ (by linarith)
    rintro j hj - k ⟨h1, h2⟩
    obtain ⟨j0, j1⟩ := h.range j hj
    have s0 := h.sorted 0 j (by omega) hj
    have s1 := h.sorted j (m - 1) (by omega) (by omega)
    rcases turn k rfl j0 j1 with hk | hk | hk | hk
    · rw [hk] at h1 h2; linarith
    · rw [hk] at h2; linarith
    · linarith
    · linarith
  -- the flags
  let ins : Bool → Nat → Bool := fun x i => if ∃ j, j < i ∧ owner j = x ∧ θ j = θ i then In x (θ i + ε) else In x (θ i - ε)
  have ins0 : ∀ x, ins x 0 = In x (θ 0 - ε) := by intro x; simp [ins]
  -- next gap
  have next : ∀ x i, i + 1 < m → θ i < θ (i + 1) → ins x (i + 1) = In x (θ i + ε) := by
    intro x i hi hlt
    have : ¬ ∃ j, j < i + 1 ∧ owner j = x ∧ θ j = θ (i + 1) := by
      rintro ⟨j, hj, -, he⟩
      have := h.sorted j i (by omega) (by omega); linarith
    simp only [ins, if_neg this]
    exact (gap x i hi hlt).symm
  have other : ∀ i, i < m → (∀ j, j < m → i < j → θ j ≠ θ i) → ins (!owner i) i = In (!owner i) (θ i + ε) := by
    intro i hi hlast
    by_cases hex : ∃ j, j < i ∧ owner j = (!owner i) ∧ θ j = θ i
    · simp only [ins, if_pos hex]
    · simp only [ins, if_neg hex]
      have e : θ i - ε = θ i + -ε := by ring
      rw [e]
      apply same _ i hi _ _ _ (by linarith) (by linarith) (by linarith)
      intro j hj ho he
      rcases Nat.lt_trichotomy j i with hl | hl | hl
      · exact hex ⟨j, hl, ho, he⟩
      · subst hl; cases hoj : owner j <;> simp [hoj] at ho
      · exact hlast j hj hl he
  have sortedlt : ∀ i, i + 1 < m → θ i ≠ θ (i + 1) → θ i < θ (i + 1) := fun i hi hne => lt_of_le_of_ne (h.sorted i (i + 1) (by omega) hi) hne
  have last_of : ∀ i, i + 1 < m → θ i ≠ θ (i + 1) → ∀ j, j < m → i < j → θ j ≠ θ i := by
    intro i hi hne j hj hij he
    have h1 := sortedlt i hi hne
    have h2 := h.sorted (i + 1) j (by omega) hj
    linarith
  have own : ∀ i, i < m → ins (owner i) i = ccw i := by
    intro i hi
    have : ¬ ∃ j, j < i ∧ owner j = owner i ∧ θ j = θ i := by
      rintro ⟨j, hj, ho, he⟩
      have := h.once j i (by omega) hi ho he; omega
    simp only [ins, if_neg this]
    exact (cross i hi).1
  refine ⟨fun x i => if i = m then ins x 0 else ins x i, ⟨?_, ?_⟩, ?_⟩
  · intro i hi
    beta_reduce
    rw [if_neg (by omega : ¬ i = m)]
    rw [if_neg (by omega : ¬ i = m)]
    refine ⟨own i hi, ?_, ?_⟩
    · by_cases hl : i + 1 = m
      · rw [if_pos hl, ins0, ← wrap _ (by omega)]
        have e : m - 1 = i := by omega
        rw [e]; exact (cross i hi).2
      · rw [if_neg hl]
        by_cases he : θ i = θ (i + 1)
        · have : ∃ j, j < i + 1 ∧ owner j = owner i ∧ θ j = θ (i + 1) := ⟨i, by omega, rfl, he⟩
          simp only [ins, if_pos this]
          rw [← he]; exact (cross i hi).2
        · rw [next _ i (by omega) (sortedlt i (by omega) he)]
          exact (cross i hi).2
    · by_cases hl : i + 1 = m
      · rw [if_pos hl, ins0, ← wrap _ (by omega)]
        have e : m - 1 = i := by omega
        rw [e, other i hi (by intro j hj hij; omega)]
      · rw [if_neg hl]
        by_cases he : θ i = θ (i + 1)
        · have : (∃ j, j < i + 1 ∧ owner j = (!owner i) ∧ θ j = θ (i + 1)) ↔ ∃ j, j < i ∧ owner j = (!owner i) ∧ θ j = θ i := by
            constructor
            · rintro ⟨j, hj, ho, ht⟩
              refine ⟨j, ?_, ho, ht.trans he.symm⟩
              by_contra hn
              have : j = i := by omega
              subst this
              cases hoj : owner j <;> simp [hoj] at ho
            · rintro ⟨j, hj, ho, ht⟩
              exact ⟨j, by omega, ho, ht.trans he⟩
          simp only [ins, this, he]
        · rw [next _ i (by omega) (sortedlt i (by omega) he), other i hi (last_of i (by omega) he)]
  · intro x
    beta_reduce
    rw [if_pos rfl]
    by_cases hm : 0 = m
    · rw [if_pos hm]
    · rw [if_neg hm]
  · intro i hi hno
    beta_reduce
    rw [if_neg (by omega : ¬ i = m)]
    have hno' : ∀ j, j < m → owner j = (!owner i) → θ j ≠ θ i := by
      intro j hj ho
      apply hno j hj
      rw [ho]; cases owner i <;> simp
    have : ¬ ∃ j, j < i ∧ owner j = (!owner i) ∧ θ j = θ i := by
      rintro ⟨j, hj, ho, he⟩
      exact hno' j (by omega) ho he
    simp only [ins, if_neg this]
    have e : θ i - ε = θ i + -ε := by ring
    have e2 : In (!owner i) (θ i) = In (!owner i) (θ i + 0) := by rw [add_zero]
    rw [e, e2]
    exact same _ i hi hno' _ _ (by linarith) (by linarith) (by linarith)

end Kigumi.Germ
