import Verif.Proofs.Local
import Verif.Spec.Classification

/-! # The tags written around an edge are the right ones -/
namespace Kigumi.Local
open Kigumi TagProg Global

/-- Everything may be written anywhere. -/
theorem edge_any (cs : List Entry) : EdgeOK (fun _ _ => True) cs (fun _ => False) (fun _ t => t ≠ .unknown) where
  ov := by simp
  ovKnown := by simp
  tag1 := by simp
  tag2 := by simp
  good := by simp
  init := by simp
  next := by
    intro i t _ ht
    split
    · split <;> simp
    · exact ht
  write := by simp

abbrev rightTag (owner : Nat → Bool) (cs : List Entry) (inside : Bool → Nat → Bool) (i : Nat) (t : Tag) : Prop :=
  Spec.RightTag cs.length (fun i => owner (nth cs i).fi) (fun i => (nth cs i).ccw) (fun i => (nth cs i).r) inside i t

/-- The configuration around an edge is consistent and `T` gives the right tags. -/
structure Consistent (owner : Nat → Bool) (T : Nat → Tag) (cs : List Entry) (inside : Bool → Nat → Bool) : Prop where
  regions : Spec.TwoRegions cs.length (fun i => owner (nth cs i).fi) (fun i => (nth cs i).ccw) inside
  coincidences : Spec.Coincidences cs.length (fun i => owner (nth cs i).fi) (fun i => (nth cs i).r)
  truth : ∀ i, i < cs.length → rightTag owner cs inside i (T (nth cs i).fi)

def overlap (cs : List Entry) (x : Nat) : Prop := ∃ i j, i < cs.length ∧ j < cs.length ∧ j ≠ i ∧ (nth cs j).r = (nth cs i).r ∧ (nth cs i).fi = x

def walkTag (owner : Nat → Bool) (cs : List Entry) (inside : Bool → Nat → Bool) (i : Nat) : Tag :=
  if inside (!owner (nth cs i).fi) i then .interior else .exterior

section
variable {owner : Nat → Bool} {T : Nat → Tag} {cs : List Entry} {inside : Bool → Nat → Bool}

theorem gap_next (h : Consistent owner T cs inside) {i : Nat} (hi : i < cs.length) (x : Bool) : inside x (i + 1) = inside x ((i + 1) % cs.length) := by
  by_cases hl : i + 1 = cs.length
  · rw [hl, Nat.mod_self]; exact h.regions.2 x
  · rw [Nat.mod_eq_of_lt (by omega)]

theorem two_le (h : Consistent owner T cs inside) (hp : 0 < cs.length) : 2 ≤ cs.length := by
  by_contra hc
  have hl : cs.length = 1 := by omega
  have h1 := h.regions.1 0 hp
  have h2 := h.regions.2 (owner (nth cs 0).fi)
  rw [hl] at h2
  simp only [Nat.zero_add] at h1
  rw [h1.1, h1.2.1] at h2
  cases (nth cs 0).ccw <;> simp at h2

theorem next_ne (h : Consistent owner T cs inside) {i : Nat} (hi : i < cs.length) : (i + 1) % cs.length ≠ i := by
  have := two_le h (by omega)
  intro he
  by_cases hl : i + 1 = cs.length
  · rw [hl, Nat.mod_self] at he; omega
  · rw [Nat.mod_eq_of_lt (by omega)] at he; omega

theorem right_unique (h : Consistent owner T cs inside) {i : Nat} {t : Tag} (hi : i < cs.length) (ht : rightTag owner cs inside i t) : T (nth cs i).fi = t := by
  have h1 := h.truth i hi
  revert h1 ht
  have uniq : ∀ j j', j < cs.length → j' < cs.length → j ≠ i → j' ≠ i → (nth cs j).r = (nth cs i).r → (nth cs j').r = (nth cs i).r → j = j' := by
    intro j j' hj hj' hji hji' hr hr'
    by_contra hne
    have h2 := (h.coincidences j i hj hi hji hr).1
    have h3 := (h.coincidences j' i hj' hi hji' hr').1
    have h4 := (h.coincidences j j' hj hj' hne (hr.trans hr'.symm)).1
    simp only at h2 h3 h4
    revert h2 h3 h4
    cases owner (nth cs i).fi <;> cases owner (nth cs j).fi <;> cases owner (nth cs j').fi <;> simp
  generalize T (nth cs i).fi = s
  unfold rightTag Spec.RightTag
  cases s <;> cases t <;> simp only [false_implies, implies_true, reduceCtorEq, imp_false, imp_true_iff]
  all_goals intro a b
  all_goals first
    | exact b.elim
    | (have h1 := a.2; have h2 := b.2; rw [h1] at h2; exact absurd h2 (by simp))
    | (obtain ⟨j, hj, hji, hr, hc⟩ := a; exact b.1 j hj hji hr)
    | (obtain ⟨j, hj, hji, hr, hc⟩ := b; exact a.1 j hj hji hr)
    | (obtain ⟨j, hj, hji, hr, hc⟩ := a; obtain ⟨j', hj', hji', hr', hc'⟩ := b
       have := uniq j j' hj hj' hji hji' hr hr'; subst this; first | exact hc hc' | exact hc' hc)

theorem walk_right (h : Consistent owner T cs inside) {i : Nat} (hi : i < cs.length) (hno : ¬ overlap cs (nth cs i).fi) :
    T (nth cs i).fi = walkTag owner cs inside i := by
  apply right_unique h hi
  have hn : ∀ j, j < cs.length → j ≠ i → (nth cs j).r ≠ (nth cs i).r := fun j hj hji hr => hno ⟨i, j, hi, hj, hji, hr, rfl⟩
  unfold walkTag
  split
  · rename_i hin; exact ⟨hn, hin⟩
  · rename_i hin; exact ⟨hn, by simpa using hin⟩

theorem walk_next (h : Consistent owner T cs inside) {i : Nat} (hi : i < cs.length) :
    walkTag owner cs inside ((i + 1) % cs.length) =
      if (nth cs ((i + 1) % cs.length)).ccw = (nth cs i).ccw then (if walkTag owner cs inside i = .exterior then .interior else .exterior) else walkTag owner cs inside i := by
  have hj : (i + 1) % cs.length < cs.length := Nat.mod_lt _ (by omega)
  have h1 := h.regions.1 i hi
  have h2 := h.regions.1 _ hj
  have h3 := gap_next h hi
  unfold walkTag
  simp only at h1 h2
  generalize hm : (i + 1) % cs.length = j at *
  obtain ⟨a1, a2, a3⟩ := h1
  obtain ⟨b1, b2, b3⟩ := h2
  rw [h3] at a2 a3
  rw [← a3]
  revert a1 a2 a3 b1 b2 b3
  cases owner (nth cs i).fi <;> cases owner (nth cs j).fi <;> cases (nth cs i).ccw <;> cases (nth cs j).ccw <;> simp <;> intros <;> simp_all

theorem overlap_tag (h : Consistent owner T cs inside) {x : Nat} (hx : overlap cs x) : T x = .coplanar ∨ T x = .opposite := by
  obtain ⟨i, j, hi, hj, hji, hr, rfl⟩ := hx
  have h1 := h.truth i hi
  revert h1
  generalize T (nth cs i).fi = s
  unfold rightTag Spec.RightTag
  cases s <;> simp only [false_implies, reduceCtorEq, or_self, or_true, true_or, implies_true, imp_false]
  all_goals (intro a; first | exact a.elim | exact a.1 j hj hji hr)

/-- Around a consistent edge the tags written are the right ones. -/
theorem edge_right (h : Consistent owner T cs inside) : EdgeOK (fun f t => t = T f) cs (overlap cs) (fun i t => t = walkTag owner cs inside i) where
  ov := by
    intro x hx t t' ht ht'
    subst ht ht'
    exact ⟨rfl, overlap_tag h hx⟩
  ovKnown := by
    rintro x ⟨i, j, hi, hj, hji, hr, rfl⟩
    rcases (h.coincidences i j hi hj (Ne.symm hji) hr.symm).2 with rfl | rfl
    · exact ⟨i, hi, hr.symm, Or.inl rfl⟩
    · exact ⟨j, hj, hr, Or.inr rfl⟩
  tag1 := by
    intro i hi hr t ht
    have hj : (i + 1) % cs.length < cs.length := Nat.mod_lt _ (by omega)
    have hne := next_ne h hi
    subst ht
    by_cases hc : (nth cs i).ccw = (nth cs ((i + 1) % cs.length)).ccw
    · simp only [hc, if_true]
      exact ⟨(right_unique h (t := .coplanar) hi ⟨_, hj, hne, hr.symm, hc.symm⟩).symm, (right_unique h (t := .coplanar) hj ⟨_, hi, Ne.symm hne, hr, hc⟩).symm⟩
    · simp only [hc, if_false]
      exact ⟨(right_unique h (t := .opposite) hi ⟨_, hj, hne, hr.symm, fun e => hc e.symm⟩).symm, (right_unique h (t := .opposite) hj ⟨_, hi, Ne.symm hne, hr, hc⟩).symm⟩
  tag2 := by
    intro i hi hf hg hc
    have hj : (i + 1) % cs.length < cs.length := Nat.mod_lt _ (by omega)
    rw [walk_right h hi hf, walk_right h hj hg]
    have h1 := h.regions.1 i hi
    have h2 := h.regions.1 _ hj
    have h3 := gap_next h hi
    unfold walkTag
    simp only at h1 h2
    generalize hm : (i + 1) % cs.length = j at *
    obtain ⟨a1, a2, a3⟩ := h1
    obtain ⟨b1, b2, b3⟩ := h2
    rw [h3] at a2 a3
    rw [← a3]
    revert a1 a2 a3 b1 b2 b3 hc
    cases owner (nth cs i).fi <;> cases owner (nth cs j).fi <;> cases (nth cs i).ccw <;> cases (nth cs j).ccw <;> simp <;> intros <;> simp_all
  good := by
    intro i t ht
    subst ht
    unfold walkTag
    split <;> simp
  init := by
    intro i hi hno t _ ht
    rw [ht, walk_right h hi hno]
  next := by
    intro i t hi ht
    subst ht
    exact (walk_next h hi).symm
  write := by
    intro i t hi ht hno
    rw [ht, walk_right h hi hno]

/-- A pair of consecutive faces without coincident partner and with the same orientation. -/
def HasPair (cs : List Entry) : Prop := ∃ i, i < cs.length ∧ ¬ overlap cs (nth cs i).fi ∧ ¬ overlap cs (nth cs ((i + 1) % cs.length)).fi ∧
  (nth cs i).ccw = (nth cs ((i + 1) % cs.length)).ccw

theorem edge_exact (h : Consistent owner T cs inside) (hT : ∀ f, T f ≠ .unknown) (hp : HasPair cs) :
    Exact (fun f t => t = T f) cs (overlap cs) (fun i t => t = walkTag owner cs inside i) where
  ne := by intro x t ht; rw [ht]; exact hT x
  sep := by
    intro i hi hno t ht
    rw [ht, walk_right h hi hno]
    unfold walkTag
    split <;> simp
  agree := by
    intro i hi t t' ht ht' hei
    by_cases hO : overlap cs (nth cs i).fi
    · have := overlap_tag h hO
      rw [← ht'] at this
      rcases hei with h1 | h1 <;> rw [h1] at this <;> simp at this
    · rw [ht, ht', walk_right h hi hO]
  pair := hp

end
end Kigumi.Local
