import Verif.Model.PointList
import Verif.Tactics
import Mathlib.Data.List.Induction

/-! # C38: merging of equal points -/
namespace Kigumi.PointList
open Kigumi
variable {P : Type} [DecidableEq P]

theorem find_some {m : List (P × Nat)} {p : P} {i : Nat} (h : find m p = some i) : (p, i) ∈ m := by
  induction m with
  | nil => cases h
  | cons a m ih =>
    obtain ⟨k, v⟩ := a
    unfold find at h
    split at h
    · rename_i hk; cases h; subst hk; simp
    · exact List.mem_cons_of_mem _ (ih h)

theorem find_none {m : List (P × Nat)} {p : P} (h : find m p = none) : ∀ i, (p, i) ∉ m := by
  induction m with
  | nil => simp
  | cons a m ih =>
    obtain ⟨k, v⟩ := a
    unfold find at h
    split at h
    · cases h
    · rename_i hk
      intro i hi
      rcases List.mem_cons.1 hi with hi | hi
      · cases hi; exact hk rfl
      · exact ih h i hi

/-- The map describes the list. -/
structure Good (l : PointList P) : Prop where
  check : l.check = true
  map : ∀ p i, (p, i) ∈ l.map ↔ l.points[i]? = some p
  nodup : l.points.Nodup

theorem good_start : Good (fresh : PointList P).startCheck := ⟨rfl, by simp [fresh, startCheck], by simp [fresh, startCheck]⟩

theorem insert_good {l : PointList P} (h : Good l) (p : P) : Good (l.insert p).1 ∧ (l.insert p).1.points[(l.insert p).2]? = some p ∧
    ((p ∈ l.points ∧ (l.insert p).1 = l) ∨ (p ∉ l.points ∧ (l.insert p).1.points = l.points ++ [p] ∧ (l.insert p).2 = l.points.length)) := by
  unfold insert
  rw [h.check]
  simp only [Bool.not_true, Bool.false_eq_true, if_false]
  cases hf : find l.map p with
  | some i =>
    have := (h.map p i).1 (find_some hf)
    exact ⟨h, this, Or.inl ⟨List.mem_of_getElem? this, rfl⟩⟩
  | none =>
    have hn : p ∉ l.points := by
      intro hp
      obtain ⟨i, hi, he⟩ := List.getElem_of_mem hp
      exact find_none hf i ((h.map p i).2 (by rw [List.getElem?_eq_getElem hi, he]))
    refine ⟨⟨rfl, ?_, ?_⟩, by simp, Or.inr ⟨hn, rfl, rfl⟩⟩
    · intro q i
      simp only [List.mem_append, List.mem_singleton, Prod.mk.injEq, h.map, List.getElem?_append]
      split
      · rename_i hi
        constructor
        · rintro (h | ⟨-, rfl⟩)
          · exact h
          · omega
        · exact Or.inl
      · rename_i hi
        rw [List.getElem?_eq_none (by omega)]
        simp only [reduceCtorEq, false_or]
        constructor
        · rintro ⟨rfl, rfl⟩; simp
        · intro h
          have hz : i - l.points.length = 0 := by
            by_contra hz
            rw [List.getElem?_eq_none (by simp; omega)] at h; cases h
          rw [hz] at h
          simp at h
          exact ⟨h.symm, by omega⟩
    · simp only [List.nodup_append, h.nodup, List.nodup_singleton, true_and]
      rintro a ha b hb rfl
      simp at hb; exact hn (hb ▸ ha)

theorem insertAll_good (ps : List P) : ∀ {l : PointList P}, Good l →
    Good (l.insertAll ps).1 ∧ l.points <+: (l.insertAll ps).1.points ∧ (l.insertAll ps).2.length = ps.length ∧
    (∀ q, q ∈ (l.insertAll ps).1.points ↔ q ∈ l.points ∨ q ∈ ps) ∧
    (∀ i p, ps[i]? = some p → ∃ id, (l.insertAll ps).2[i]? = some id ∧ (l.insertAll ps).1.points[id]? = some p ∧
      (p ∉ l.points → p ∉ ps.take i → (∀ j id', j < i → (l.insertAll ps).2[j]? = some id' → id' < id) ∧ l.points.length ≤ id ∧
        ∀ k, k < id → l.points.length ≤ k → ∃ j, j < i ∧ (l.insertAll ps).2[j]? = some k)) := by
  induction ps with
  | nil => intro l h; exact ⟨h, List.prefix_refl _, rfl, by simp [insertAll], by simp⟩
  | cons p ps ih =>
    intro l h
    obtain ⟨g1, p1, c1⟩ := insert_good h p
    obtain ⟨g2, pre2, len2, mem2, ids2⟩ := ih g1
    have pre1 : l.points <+: (l.insert p).1.points := by
      rcases c1 with ⟨-, h⟩ | ⟨-, h, -⟩
      · rw [h]; exact List.prefix_refl _
      · rw [h]; exact List.prefix_append _ _
    have e1 : (l.insertAll (p :: ps)).1 = ((l.insert p).1.insertAll ps).1 := rfl
    have e2 : (l.insertAll (p :: ps)).2 = (l.insert p).2 :: ((l.insert p).1.insertAll ps).2 := rfl
    rw [e1, e2]
    refine ⟨g2, pre1.trans pre2, by simp [len2], ?_, ?_⟩
    · intro q
      rw [mem2]
      rcases c1 with ⟨hm, h⟩ | ⟨-, h, -⟩
      · rw [h]; simp only [List.mem_cons]
        constructor
        · tauto
        · rintro (h | rfl | h) <;> tauto
      · rw [h]; simp only [List.mem_append, List.mem_singleton, List.mem_cons, List.not_mem_nil, or_false]; tauto
    · intro i q hq
      cases i with
      | zero =>
        simp at hq
        subst hq
        refine ⟨(l.insert p).2, rfl, ?_, ?_⟩
        · obtain ⟨t, ht⟩ := pre2
          rw [← ht, List.getElem?_append_left]
          · exact p1
          · by_contra hc
            rw [List.getElem?_eq_none (by omega)] at p1; cases p1
        · intro hn _
          rcases c1 with ⟨hm, -⟩ | ⟨-, -, hid⟩
          · exact absurd hm hn
          · refine ⟨by omega, by omega, ?_⟩
            intro k h1 h2; omega
      | succ i =>
        simp only [List.getElem?_cons_succ] at hq
        obtain ⟨id, a1, a2, a3⟩ := ids2 i q hq
        refine ⟨id, by simpa using a1, a2, ?_⟩
        intro hn ht
        simp only [List.take_succ_cons, List.mem_cons, not_or] at ht
        have hn' : q ∉ (l.insert p).1.points := by
          rcases c1 with ⟨-, h⟩ | ⟨-, h, -⟩
          · rw [h]; exact hn
          · rw [h]; simp only [List.mem_append, List.mem_singleton]; tauto
        obtain ⟨b1, b2, b3⟩ := a3 hn' ht.2
        have hlt : (l.insert p).2 < (l.insert p).1.points.length := by
          by_contra hc
          rw [List.getElem?_eq_none (by omega)] at p1; cases p1
        have hle := pre1.length_le
        refine ⟨?_, by omega, ?_⟩
        · intro j id' hj hid
          cases j with
          | zero => simp at hid; omega
          | succ j => exact b1 j id' (by omega) (by simpa using hid)
        · intro k h1 h2
          by_cases hk : (l.insert p).1.points.length ≤ k
          · obtain ⟨j, hj, hj'⟩ := b3 k h1 hk
            exact ⟨j + 1, by omega, by simpa using hj'⟩
          · rcases c1 with ⟨-, h⟩ | ⟨-, h, h'⟩
            · rw [h] at hk; omega
            · rw [h] at hk
              simp at hk
              exact ⟨0, by omega, by simp; omega⟩

theorem apply_prefix (l : PointList P) (op : Op P) : l.points <+: (l.apply op).points := by
  cases op with
  | insert p =>
    show l.points <+: (l.insert p).1.points
    unfold insert
    split
    · exact List.prefix_append _ _
    · split
      · exact List.prefix_refl _
      · exact List.prefix_append _ _
  | start => exact List.prefix_refl _
  | stop => exact List.prefix_refl _

end Kigumi.PointList

namespace Kigumi.Props
open Kigumi PointList
variable {P : Type} [DecidableEq P]

/-- **Merging identifies exactly equal points.** When the points `ps` are inserted one after the other into a new list with the uniqueness check on: every point gets an id that denotes it; two points get the same
id iff they are equal; a point that did not occur before gets an id larger than all ids given before, and all smaller ids have been given (ids are consecutive in the order of first appearance); the points of the list are the inserted
points, each once. -/
theorem C38_merging (ps : List P) :
    let r := (fresh : PointList P).startCheck.insertAll ps
    r.2.length = ps.length ∧ r.1.points.Nodup ∧ (∀ q, q ∈ r.1.points ↔ q ∈ ps) ∧
    (∀ (i : Nat) p (id : Nat), ps[i]? = some p → r.2[i]? = some id → r.1.points[id]? = some p) ∧
    (∀ (i j : Nat) p q (id id' : Nat), ps[i]? = some p → ps[j]? = some q → r.2[i]? = some id → r.2[j]? = some id' → (id = id' ↔ p = q)) ∧
    (∀ (i : Nat) p (id : Nat), ps[i]? = some p → r.2[i]? = some id → p ∉ ps.take i → (∀ k, k < id ↔ ∃ j, j < i ∧ r.2[j]? = some k)) := by
  intro r
  obtain ⟨g, -, len, mem, ids⟩ := insertAll_good ps (good_start (P := P))
  have den : ∀ (i : Nat) p (id : Nat), ps[i]? = some p → r.2[i]? = some id → r.1.points[id]? = some p := by
    intro i p id h h'
    obtain ⟨id', a, b, -⟩ := ids i p h
    rw [show r.2[i]? = some id' from a] at h'; cases h'
    exact b
  refine ⟨len, g.nodup, fun q => (mem q).trans (by simp [fresh, startCheck]), den, ?_, ?_⟩
  · intro i j p q id id' h1 h2 h3 h4
    have d1 := den i p id h1 h3
    have d2 := den j q id' h2 h4
    constructor
    · rintro rfl; rw [d1] at d2; cases d2; rfl
    · rintro rfl
      have l1 : id < r.1.points.length := by by_contra hc; rw [List.getElem?_eq_none (by omega)] at d1; cases d1
      exact (List.nodup_iff_injective_getElem.1 g.nodup |> fun h => by
        have l2 : id' < r.1.points.length := by by_contra hc; rw [List.getElem?_eq_none (by omega)] at d2; cases d2
        rw [List.getElem?_eq_getElem l1] at d1
        rw [List.getElem?_eq_getElem l2] at d2
        have := @h ⟨id, l1⟩ ⟨id', l2⟩ (by simpa using (Option.some.inj d1).trans (Option.some.inj d2).symm)
        simpa using this)
  · intro i p id h h' hn k
    obtain ⟨id', a, -, c⟩ := ids i p h
    rw [show r.2[i]? = some id' from a] at h'; cases h'
    obtain ⟨c1, -, c3⟩ := c (by simp [fresh, startCheck]) hn
    constructor
    · intro hk; exact c3 k hk (by simp [fresh, startCheck])
    · rintro ⟨j, hj, hj'⟩; exact c1 j k hj hj'

/-- **Ids never change.** Whatever is done with a list afterwards (insertions with or without check, switching the check on and off), an id keeps denoting the same point. -/
theorem C38_stable (l : PointList P) (ops : List (Op P)) (id : Nat) (p : P) (h : l.points[id]? = some p) : (ops.foldl PointList.apply l).points[id]? = some p := by
  induction ops generalizing l with
  | nil => exact h
  | cons op ops ih =>
    apply ih
    obtain ⟨t, ht⟩ := apply_prefix l op
    rw [← ht, List.getElem?_append_left]
    · exact h
    · by_contra hc
      rw [List.getElem?_eq_none (by omega)] at h; cases h

/-- Both operands of a Boolean operation: vertices of the left and right operand get the same id iff their coordinates are equal, and each id denotes the coordinates of its vertices. -/
theorem C38_operands (left right : List P) :
    let r := corefinePoints left right
    r.2.1.length = left.length ∧ r.2.2.length = right.length ∧ r.1.points.Nodup ∧
    (∀ (i : Nat) p, left[i]? = some p → ∃ id, r.2.1[i]? = some id ∧ r.1.points[id]? = some p) ∧
    (∀ (i : Nat) p, right[i]? = some p → ∃ id, r.2.2[i]? = some id ∧ r.1.points[id]? = some p) := by
  intro r
  obtain ⟨g, -, len, mem, ids⟩ := insertAll_good left (good_start (P := P))
  obtain ⟨g', pre, len', mem', ids'⟩ := insertAll_good right g
  refine ⟨len, len', g'.nodup, ?_, ?_⟩
  · intro i p h
    obtain ⟨id, a, b, -⟩ := ids i p h
    refine ⟨id, a, ?_⟩
    obtain ⟨t, ht⟩ := pre
    show (((fresh.startCheck.insertAll left).1.insertAll right).1.points)[id]? = some p
    rw [← ht, List.getElem?_append_left]
    · exact b
    · by_contra hc
      rw [List.getElem?_eq_none (by omega)] at b; cases b
  · intro i p h
    obtain ⟨id, a, b, -⟩ := ids' i p h
    exact ⟨id, a, b⟩

/-- With the check on only later, earlier points are not found: the guarantee is for lists checked from the start. -/
theorem C38_late_check : ∃ (l : PointList Nat), l = ((fresh : PointList Nat).insert 7).1.startCheck ∧ (l.insert 7).2 = 1 ∧ l.points[0]? = some 7 :=
  ⟨_, rfl, by decide, by decide⟩

/-- The state after a history. -/
def after (ops : List (Op P)) : PointList P := ops.foldl PointList.apply fresh

/-- The check is on after a history: it was started, and not stopped since. -/
def Checking (ops : List (Op P)) : Prop := ∃ h mid, ops = h ++ Op.start :: mid ∧ Op.stop ∉ mid

/-- `h` is the part of a history before an insertion of `p` during which the check was on, and it was not stopped since. -/
def Earlier (ops h : List (Op P)) (p : P) : Prop := Checking h ∧ ∃ mid, ops = h ++ Op.insert p :: mid ∧ Op.stop ∉ mid

omit [DecidableEq P] in
theorem snoc_cases {ops h mid : List (Op P)} {o x : Op P} : ops ++ [o] = h ++ x :: mid ↔ (mid = [] ∧ ops = h ∧ o = x) ∨ ∃ mid', mid = mid' ++ [o] ∧ ops = h ++ x :: mid' := by
  constructor
  · intro e
    rcases List.eq_nil_or_concat mid with rfl | ⟨m, y, rfl⟩
    · have := List.append_inj' e (by simp)
      exact .inl ⟨rfl, this.1, by simpa using this.2⟩
    · have e' : ops ++ [o] = (h ++ x :: m) ++ [y] := by rw [e]; simp
      have := List.append_inj' e' (by simp)
      have hy : o = y := by simpa using this.2
      exact .inr ⟨m, by simp [hy], this.1⟩
  · rintro (⟨rfl, rfl, rfl⟩ | ⟨m, rfl, rfl⟩) <;> simp

omit [DecidableEq P] in
theorem checking_snoc {ops : List (Op P)} {o : Op P} : Checking (ops ++ [o]) ↔ o = .start ∨ (Checking ops ∧ o ≠ .stop) := by
  constructor
  · rintro ⟨h, mid, e, hn⟩
    rcases snoc_cases.1 e with ⟨-, -, e⟩ | ⟨m, rfl, e'⟩
    · exact .inl e
    · exact .inr ⟨⟨h, m, e', fun hm => hn (by simp [hm])⟩, fun ho => hn (by simp [ho])⟩
  · rintro (rfl | ⟨⟨h, mid, rfl, hn⟩, ho⟩)
    · exact ⟨ops, [], rfl, by simp⟩
    · exact ⟨h, mid ++ [o], by simp, by simpa [hn] using fun e => ho e.symm⟩

omit [DecidableEq P] in
theorem earlier_snoc {ops h : List (Op P)} {o : Op P} {p : P} : Earlier (ops ++ [o]) h p ↔ (h = ops ∧ Checking ops ∧ o = .insert p) ∨ (Earlier ops h p ∧ o ≠ .stop) := by
  constructor
  · rintro ⟨hc, mid, e, hn⟩
    rcases snoc_cases.1 e with ⟨-, e, e'⟩ | ⟨m, rfl, e'⟩
    · exact .inl ⟨e.symm, e ▸ hc, e'⟩
    · exact .inr ⟨⟨hc, m, e', fun hm => hn (by simp [hm])⟩, fun ho => hn (by simp [ho])⟩
  · rintro (⟨rfl, hc, rfl⟩ | ⟨⟨hc, mid, rfl, hn⟩, ho⟩)
    · exact ⟨hc, [], rfl, by simp⟩
    · exact ⟨hc, mid ++ [o], by simp, by simpa [hn] using fun e => ho e.symm⟩

theorem after_inv (ops : List (Op P)) : ((after ops).check = true ↔ Checking ops) ∧ (∀ p i, (p, i) ∈ (after ops).map ↔ ∃ h, Earlier ops h p ∧ ((after h).insert p).2 = i) ∧
    (∀ p i j, (p, i) ∈ (after ops).map → (p, j) ∈ (after ops).map → i = j) := by
  induction ops using List.reverseRecOn with
  | nil =>
    refine ⟨by simp [after, fresh, Checking], fun p i => ?_, by simp [after, fresh]⟩
    simp [after, fresh, Earlier]
  | append_singleton ops o ih =>
    obtain ⟨h1, h2, h3⟩ := ih
    have e : after (ops ++ [o]) = (after ops).apply o := by simp [after]
    rw [e, checking_snoc]
    simp only [earlier_snoc]
    cases o with
    | start => exact ⟨by simp [PointList.apply, startCheck], by simpa [PointList.apply, startCheck] using h2, h3⟩
    | stop => exact ⟨by simp [PointList.apply, stopCheck], by simp [PointList.apply, stopCheck], by simp [PointList.apply, stopCheck]⟩
    | insert q =>
      simp only [PointList.apply, ne_eq, reduceCtorEq, not_false_iff, and_true, false_or, Op.insert.injEq]
      by_cases hc : Checking ops
      · have hk := h1.2 hc
        cases hf : find (after ops).map q with
        | some j =>
          have e2 : (after ops).insert q = (after ops, j) := by simp [PointList.insert, hk, hf]
          rw [e2]
          refine ⟨h1, fun p i => ⟨fun hm => ?_, ?_⟩, h3⟩
          · obtain ⟨h, hh, hi⟩ := (h2 p i).1 hm
            exact ⟨h, .inr hh, hi⟩
          · rintro ⟨h, ⟨rfl, -, rfl⟩ | hh, hi⟩
            · rw [e2] at hi
              exact hi ▸ find_some hf
            · exact (h2 p i).2 ⟨h, hh, hi⟩
        | none =>
          have e2 : (after ops).insert q = (⟨(after ops).points ++ [q], (after ops).map ++ [(q, (after ops).points.length)], (after ops).check⟩, (after ops).points.length) := by simp [PointList.insert, hk, hf]
          rw [e2]
          refine ⟨h1, fun p i => ⟨fun hm => ?_, ?_⟩, fun p i j hi hj => ?_⟩
          · rcases List.mem_append.1 hm with hm | hm
            · obtain ⟨h, hh, hi⟩ := (h2 p i).1 hm
              exact ⟨h, .inr hh, hi⟩
            · simp only [List.mem_singleton, Prod.mk.injEq] at hm
              exact ⟨ops, .inl ⟨rfl, hc, hm.1.symm⟩, by rw [hm.1, e2]; exact hm.2.symm⟩
          · rintro ⟨h, ⟨rfl, -, rfl⟩ | hh, hi⟩
            · rw [e2] at hi
              exact List.mem_append.2 (.inr (by simp [← hi]))
            · exact List.mem_append.2 (.inl ((h2 p i).2 ⟨h, hh, hi⟩))
          · rcases List.mem_append.1 hi with hi | hi <;> rcases List.mem_append.1 hj with hj | hj
            · exact h3 p i j hi hj
            · simp only [List.mem_singleton, Prod.mk.injEq] at hj
              exact absurd (hj.1 ▸ hi) (find_none hf i)
            · simp only [List.mem_singleton, Prod.mk.injEq] at hi
              exact absurd (hi.1 ▸ hj) (find_none hf j)
            · simp only [List.mem_singleton, Prod.mk.injEq] at hi hj
              rw [hi.2, hj.2]
      · have hk : (after ops).check = false := by
          rw [← Bool.not_eq_true]; exact fun h => hc (h1.1 h)
        have e2 : ((after ops).insert q).1 = ⟨(after ops).points ++ [q], (after ops).map, (after ops).check⟩ := by simp [PointList.insert, hk]
        rw [e2]
        refine ⟨h1, fun p i => ?_, h3⟩
        rw [h2]
        constructor
        · rintro ⟨h, hh, hi⟩
          exact ⟨h, .inr hh, hi⟩
        · rintro ⟨h, ⟨-, h, -⟩ | hh, hi⟩
          · exact absurd h hc
          · exact ⟨h, hh, hi⟩

/--
**C38** (any history). An insertion returns an earlier id exactly if the check is on and the point was inserted since it was last stopped, with the check on; it is the id it got then. Otherwise the point is added at the end.
In particular, points inserted before the check was stopped are forgotten.
-/
theorem C38_history (ops : List (Op P)) (p : P) :
    (∀ h, Checking ops → Earlier ops h p → (after ops).insert p = (after ops, ((after h).insert p).2)) ∧
    ((¬ Checking ops ∨ ∀ h, ¬ Earlier ops h p) → ((after ops).insert p).1.points = (after ops).points ++ [p] ∧ ((after ops).insert p).2 = (after ops).points.length) := by
  obtain ⟨h1, h2, h3⟩ := after_inv ops
  constructor
  · intro h hc hh
    have hm := (h2 p _).2 ⟨h, hh, rfl⟩
    cases hf : find (after ops).map p with
    | none => exact absurd hm (find_none hf _)
    | some j =>
      have := h3 p _ _ hm (find_some hf)
      rw [this]
      simp [PointList.insert, h1.2 hc, hf]
  · intro hn
    by_cases hk : (after ops).check = true
    · have hn := hn.resolve_left (not_not.2 (h1.1 hk))
      cases hf : find (after ops).map p with
      | none => simp [PointList.insert, hk, hf]
      | some j =>
        obtain ⟨h, hh, -⟩ := (h2 p j).1 (find_some hf)
        exact absurd hh (hn h)
    · simp [PointList.insert, hk]

example : (after [Op.start, .insert 7, .insert 8, .insert 7]).points = [7, 8] ∧ (after [Op.start, .insert 7, .stop, .start, .insert 7]).points = [7, 7] := by decide

example : (fresh : PointList String).startCheck.insertAll ["a", "b", "a", "c", "b"] = (⟨["a", "b", "c"], [("a", 0), ("b", 1), ("c", 2)], true⟩, [0, 1, 0, 2, 1]) := by decide

end Kigumi.Props
