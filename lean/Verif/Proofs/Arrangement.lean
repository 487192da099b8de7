import Verif.Spec.Arrangement
import Verif.Proofs.Extract
/-! Helper lemmas for the correctness of Boolean results on arrangements. -/
namespace Kigumi
open Spec Outcome
variable {P Cell D : Type}

theorem truth_eq_apply (op : Op) (a b : Bool) : truth op a b = applyOp op a b := by
  cases op <;> cases a <;> cases b <;> rfl

theorem Spec.SameTri.flip {t t' : Tri P} (h : SameTri t t') : SameTri t.flip t'.flip := by
  rcases h with rfl | rfl | rfl
  · exact Or.inl rfl
  · exact Or.inr (Or.inr rfl)
  · exact Or.inr (Or.inl rfl)

@[simp] theorem Tri.flip_flip (t : Tri P) : t.flip.flip = t := rfl
@[simp] theorem Tri.rot3 (t : Tri P) : t.rot.rot.rot = t := rfl

theorem Spec.SameTri.flip_iff {t t' : Tri P} : SameTri t.flip t' ↔ SameTri t t'.flip :=
  ⟨fun h => by simpa using SameTri.flip h, fun h => by simpa using SameTri.flip h⟩

theorem Spec.SameTri.symm {t t' : Tri P} (h : SameTri t t') : SameTri t' t := by
  rcases h with rfl | rfl | rfl
  · exact Or.inl rfl
  · exact Or.inr (Or.inr rfl)
  · exact Or.inr (Or.inl rfl)

theorem Spec.SameTri.trans {t t' t'' : Tri P} (h : SameTri t t') (h' : SameTri t' t'') : SameTri t t'' := by
  rcases h with rfl | rfl | rfl <;> rcases h' with rfl | rfl | rfl <;> simp [SameTri]

theorem Spec.SameTri.not_flip {t t' : Tri P} (hd : t.a ≠ t.b ∧ t.b ≠ t.c ∧ t.c ≠ t.a) (h : SameTri t t') :
    ¬ SameTri t.flip t' := by
  obtain ⟨a, b, c⟩ := t
  simp only [ne_eq] at hd
  rcases h with rfl | rfl | rfl <;> rintro (h | h | h) <;> simp [Tri.flip, Tri.rot] at h <;> grind

/-- The tag a face must have on a wall: `o` is its orientation (true: along the wall), `n p` the other operand's
indicator behind and in front of the wall. -/
def tagAt (o n p : Bool) : Tag :=
  match n, p with
  | true, true => .interior
  | false, false => .exterior
  | true, false => if o then .coplanar else .opposite
  | false, true => if o then .opposite else .coplanar

theorem countP_pos_iff' {α : Type} (p : α → Bool) (l : List α) : 0 < l.countP p ↔ ∃ a ∈ l, p a = true := by
  rw [List.countP_pos_iff]

theorem Spec.Bounds.pos_iff [DecidableEq P] {ar : Arrangement P Cell} {ts : List (Tri P)} {χ : Cell → Bool}
    (h : Bounds ar ts χ) (w : ar.Wall) :
    (∃ t ∈ ts, SameTri (ar.tri w) t) ↔ (χ (ar.behind w) && !χ (ar.front w)) = true := by
  have := (h.2 w).1
  constructor
  · rintro ⟨t, ht, hs⟩
    by_contra hc
    rw [if_neg hc] at this
    have hp : 0 < ts.countP (fun t => decide (SameTri (ar.tri w) t)) :=
      List.countP_pos_iff.2 ⟨t, ht, by simpa using hs⟩
    omega
  · intro hc
    rw [if_pos hc] at this
    have hp : 0 < ts.countP (fun t => decide (SameTri (ar.tri w) t)) := by omega
    obtain ⟨t, ht, hs⟩ := List.countP_pos_iff.1 hp
    exact ⟨t, ht, by simpa using hs⟩

theorem Spec.Bounds.neg_iff [DecidableEq P] {ar : Arrangement P Cell} {ts : List (Tri P)} {χ : Cell → Bool}
    (h : Bounds ar ts χ) (w : ar.Wall) :
    (∃ t ∈ ts, SameTri (ar.tri w).flip t) ↔ (χ (ar.front w) && !χ (ar.behind w)) = true := by
  have := (h.2 w).2
  constructor
  · rintro ⟨t, ht, hs⟩
    by_contra hc
    rw [if_neg hc] at this
    have hp : 0 < ts.countP (fun t => decide (SameTri (ar.tri w).flip t)) :=
      List.countP_pos_iff.2 ⟨t, ht, by simpa using hs⟩
    omega
  · intro hc
    rw [if_pos hc] at this
    have hp : 0 < ts.countP (fun t => decide (SameTri (ar.tri w).flip t)) := by omega
    obtain ⟨t, ht, hs⟩ := List.countP_pos_iff.1 hp
    exact ⟨t, ht, by simpa using hs⟩

theorem tag_eq_pos [DecidableEq P] {ar : Arrangement P Cell} {t : Tri P} {os : List (Tri P)} {χ' : Cell → Bool}
    {tag : Tag} (h : TagTrue ar t os χ' tag) (hb : Bounds ar os χ') {w : ar.Wall} (hw : SameTri (ar.tri w) t) :
    tag = tagAt true (χ' (ar.behind w)) (χ' (ar.front w)) := by
  obtain ⟨hc, ho, hu, hi⟩ := h
  have hi := hi w (Or.inl hw)
  have e1 : (∃ t' ∈ os, SameTri t t') ↔ (∃ t' ∈ os, SameTri (ar.tri w) t') :=
    ⟨fun ⟨t', h1, h2⟩ => ⟨t', h1, hw.trans h2⟩, fun ⟨t', h1, h2⟩ => ⟨t', h1, hw.symm.trans h2⟩⟩
  have e2 : (∃ t' ∈ os, SameTri t.flip t') ↔ (∃ t' ∈ os, SameTri (ar.tri w).flip t') :=
    ⟨fun ⟨t', h1, h2⟩ => ⟨t', h1, hw.flip.trans h2⟩, fun ⟨t', h1, h2⟩ => ⟨t', h1, hw.flip.symm.trans h2⟩⟩
  rw [e1, hb.pos_iff] at hc
  rw [e2, hb.neg_iff] at ho
  generalize χ' (ar.behind w) = n at *
  generalize χ' (ar.front w) = p at *
  cases n <;> cases p <;> cases tag <;> simp_all [tagAt]

theorem tag_eq_neg [DecidableEq P] {ar : Arrangement P Cell} {t : Tri P} {os : List (Tri P)} {χ' : Cell → Bool}
    {tag : Tag} (h : TagTrue ar t os χ' tag) (hb : Bounds ar os χ') {w : ar.Wall} (hw : SameTri (ar.tri w).flip t) :
    tag = tagAt false (χ' (ar.behind w)) (χ' (ar.front w)) := by
  obtain ⟨hc, ho, hu, hi⟩ := h
  have hi := hi w (Or.inr hw)
  have hw' : SameTri (ar.tri w) t.flip := SameTri.flip_iff.1 hw
  have e1 : (∃ t' ∈ os, SameTri t t') ↔ (∃ t' ∈ os, SameTri (ar.tri w).flip t') :=
    ⟨fun ⟨t', h1, h2⟩ => ⟨t', h1, hw.trans h2⟩, fun ⟨t', h1, h2⟩ => ⟨t', h1, hw.symm.trans h2⟩⟩
  have e2 : (∃ t' ∈ os, SameTri t.flip t') ↔ (∃ t' ∈ os, SameTri (ar.tri w) t') :=
    ⟨fun ⟨t', h1, h2⟩ => ⟨t', h1, hw'.trans h2⟩, fun ⟨t', h1, h2⟩ => ⟨t', h1, hw'.symm.trans h2⟩⟩
  rw [e1, hb.neg_iff] at hc
  rw [e2, hb.pos_iff] at ho
  generalize χ' (ar.behind w) = n at *
  generalize χ' (ar.front w) = p at *
  cases n <;> cases p <;> cases tag <;> simp_all [tagAt]

/-- Corner triples that should be emitted. -/
def outTris (ts : List (Tri P)) (data : List (MixedData D)) (op : Op) (pf : Bool) : List (Tri P) :=
  (ts.zip data).filterMap fun x =>
    (select op pf x.2.fromLeft x.2.tag).map fun inv => if inv then x.1.flip else x.1

/-- Counting with a predicate that is a disjunction of four disjoint ones, each switched on or off. -/
theorem countP_four {α : Type} (l : List α) (q p1 p2 p3 p4 : α → Bool) (c1 c2 c3 c4 : Bool)
    (h : ∀ x ∈ l, q x = ((p1 x && c1) || (p2 x && c2) || (p3 x && c3) || (p4 x && c4)))
    (d12 : ∀ x ∈ l, ¬ (p1 x = true ∧ p2 x = true)) (d13 : ∀ x ∈ l, ¬ (p1 x = true ∧ p3 x = true))
    (d14 : ∀ x ∈ l, ¬ (p1 x = true ∧ p4 x = true)) (d23 : ∀ x ∈ l, ¬ (p2 x = true ∧ p3 x = true))
    (d24 : ∀ x ∈ l, ¬ (p2 x = true ∧ p4 x = true)) (d34 : ∀ x ∈ l, ¬ (p3 x = true ∧ p4 x = true)) :
    l.countP q = (if c1 then l.countP p1 else 0) + (if c2 then l.countP p2 else 0) +
      (if c3 then l.countP p3 else 0) + (if c4 then l.countP p4 else 0) := by
  induction l with
  | nil => simp
  | cons x l ih =>
    have ih := ih (fun y hy => h y (List.mem_cons_of_mem _ hy)) (fun y hy => d12 y (List.mem_cons_of_mem _ hy))
      (fun y hy => d13 y (List.mem_cons_of_mem _ hy)) (fun y hy => d14 y (List.mem_cons_of_mem _ hy))
      (fun y hy => d23 y (List.mem_cons_of_mem _ hy)) (fun y hy => d24 y (List.mem_cons_of_mem _ hy))
      (fun y hy => d34 y (List.mem_cons_of_mem _ hy))
    have hx := h x List.mem_cons_self
    have a12 := d12 x List.mem_cons_self
    have a13 := d13 x List.mem_cons_self
    have a14 := d14 x List.mem_cons_self
    have a23 := d23 x List.mem_cons_self
    have a24 := d24 x List.mem_cons_self
    have a34 := d34 x List.mem_cons_self
    simp only [List.countP_cons, ih, hx]
    generalize p1 x = b1 at *
    generalize p2 x = b2 at *
    generalize p3 x = b3 at *
    generalize p4 x = b4 at *
    clear ih hx h d12 d13 d14 d23 d24 d34
    cases b1 <;> cases b2 <;> cases b3 <;> cases b4 <;> simp at a12 a13 a14 a23 a24 a34 <;>
      cases c1 <;> cases c2 <;> cases c3 <;> cases c4 <;> simp <;> omega

theorem countP_operand (ts : List (Tri P)) (data : List (MixedData D)) (left : Bool) (p : Tri P → Bool) :
    (operandTris ts data left).countP p =
      (ts.zip data).countP (fun x => x.2.fromLeft == left && p x.1) := by
  simp only [operandTris, List.countP_map, List.countP_filter]
  congr 1
  funext x
  simp [Function.comp, Bool.and_comm]

theorem mem_operand {ts : List (Tri P)} {data : List (MixedData D)} {x : Tri P × MixedData D}
    (hx : x ∈ ts.zip data) : x.1 ∈ operandTris ts data x.2.fromLeft := by
  simp only [operandTris, List.mem_map, List.mem_filter]
  exact ⟨x, ⟨hx, by simp⟩, rfl⟩

/-- The finite core: on a wall with the given indicators, the selected copies are exactly the boundary of the result. -/
theorem wall_table (op : Op) (pf an ap bn bp : Bool) :
    (if select op pf true (tagAt true bn bp) = some false then (if an && !ap then 1 else 0) else 0) +
    (if select op pf true (tagAt false bn bp) = some true then (if ap && !an then 1 else 0) else 0) +
    (if select op pf false (tagAt true an ap) = some false then (if bn && !bp then 1 else 0) else 0) +
    (if select op pf false (tagAt false an ap) = some true then (if bp && !bn then 1 else 0) else 0) =
      (if truth op an bn && !truth op ap bp then 1 else 0) := by
  cases op <;> cases pf <;> cases an <;> cases ap <;> cases bn <;> cases bp <;> decide

theorem wall_table' (op : Op) (pf an ap bn bp : Bool) :
    (if select op pf true (tagAt true bn bp) = some true then (if an && !ap then 1 else 0) else 0) +
    (if select op pf true (tagAt false bn bp) = some false then (if ap && !an then 1 else 0) else 0) +
    (if select op pf false (tagAt true an ap) = some true then (if bn && !bp then 1 else 0) else 0) +
    (if select op pf false (tagAt false an ap) = some false then (if bp && !bn then 1 else 0) else 0) =
      (if truth op ap bp && !truth op an bn then 1 else 0) := by
  cases op <;> cases pf <;> cases an <;> cases ap <;> cases bn <;> cases bp <;> decide

theorem outTris_bounds [DecidableEq P] {ar : Arrangement P Cell} {χA χB : Cell → Bool} {ts : List (Tri P)}
    {data : List (MixedData D)} (hA : Bounds ar (operandTris ts data true) χA)
    (hB : Bounds ar (operandTris ts data false) χB)
    (htag : ∀ x ∈ ts.zip data,
      TagTrue ar x.1 (operandTris ts data (!x.2.fromLeft)) (if x.2.fromLeft then χB else χA) x.2.tag)
    (op : Op) (pf : Bool) :
    Bounds ar (outTris ts data op pf) (fun c => truth op (χA c) (χB c)) := by
  constructor
  · intro t ht
    simp only [outTris, List.mem_filterMap, Option.map_eq_some_iff] at ht
    obtain ⟨x, hx, inv, _, rfl⟩ := ht
    have hm := mem_operand hx
    have : ∃ w, SameTri (ar.tri w) x.1 ∨ SameTri (ar.tri w).flip x.1 := by
      cases hl : x.2.fromLeft
      · rw [hl] at hm; exact hB.1 _ hm
      · rw [hl] at hm; exact hA.1 _ hm
    obtain ⟨w, hw⟩ := this
    refine ⟨w, ?_⟩
    cases inv
    · simpa using hw
    · rcases hw with h | h
      · exact Or.inr h.flip
      · exact Or.inl (SameTri.flip_iff.1 h)
  · intro w
    have tagL : ∀ x ∈ ts.zip data, x.2.fromLeft = true → SameTri (ar.tri w) x.1 →
        x.2.tag = tagAt true (χB (ar.behind w)) (χB (ar.front w)) := by
      intro x hx hl hs
      have := htag x hx
      rw [hl] at this
      exact tag_eq_pos this (by simpa using hB) hs
    have tagL' : ∀ x ∈ ts.zip data, x.2.fromLeft = true → SameTri (ar.tri w).flip x.1 →
        x.2.tag = tagAt false (χB (ar.behind w)) (χB (ar.front w)) := by
      intro x hx hl hs
      have := htag x hx
      rw [hl] at this
      exact tag_eq_neg this (by simpa using hB) hs
    have tagR : ∀ x ∈ ts.zip data, x.2.fromLeft = false → SameTri (ar.tri w) x.1 →
        x.2.tag = tagAt true (χA (ar.behind w)) (χA (ar.front w)) := by
      intro x hx hl hs
      have := htag x hx
      rw [hl] at this
      exact tag_eq_pos this (by simpa using hA) hs
    have tagR' : ∀ x ∈ ts.zip data, x.2.fromLeft = false → SameTri (ar.tri w).flip x.1 →
        x.2.tag = tagAt false (χA (ar.behind w)) (χA (ar.front w)) := by
      intro x hx hl hs
      have := htag x hx
      rw [hl] at this
      exact tag_eq_neg this (by simpa using hA) hs
    have excl : ∀ t : Tri P, SameTri (ar.tri w) t → ¬ SameTri (ar.tri w).flip t :=
      fun t h => h.not_flip (ar.distinct w)
    have hA1 := (hA.2 w).1
    have hA2 := (hA.2 w).2
    have hB1 := (hB.2 w).1
    have hB2 := (hB.2 w).2
    rw [countP_operand] at hA1 hA2 hB1 hB2
    constructor
    · rw [← wall_table op pf, ← hA1, ← hA2, ← hB1, ← hB2]
      simp only [outTris, List.countP_filterMap]
      have := countP_four (ts.zip data)
        (fun x => (((select op pf x.2.fromLeft x.2.tag).map fun inv => if inv then x.1.flip else x.1).map
          fun t => decide (SameTri (ar.tri w) t)).getD false)
        (fun x => x.2.fromLeft == true && decide (SameTri (ar.tri w) x.1))
        (fun x => x.2.fromLeft == true && decide (SameTri (ar.tri w).flip x.1))
        (fun x => x.2.fromLeft == false && decide (SameTri (ar.tri w) x.1))
        (fun x => x.2.fromLeft == false && decide (SameTri (ar.tri w).flip x.1))
        (decide (select op pf true (tagAt true (χB (ar.behind w)) (χB (ar.front w))) = some false))
        (decide (select op pf true (tagAt false (χB (ar.behind w)) (χB (ar.front w))) = some true))
        (decide (select op pf false (tagAt true (χA (ar.behind w)) (χA (ar.front w))) = some false))
        (decide (select op pf false (tagAt false (χA (ar.behind w)) (χA (ar.front w))) = some true))
        ?_ ?_ ?_ ?_ ?_ ?_ ?_
      · rw [this]; simp only [decide_eq_true_eq]
      · intro x hx
        by_cases hp : SameTri (ar.tri w) x.1
        · have hn := excl _ hp
          have hf : ¬ SameTri (ar.tri w) x.1.flip := fun h => hn (SameTri.flip_iff.2 h)
          cases hl : x.2.fromLeft
          · rw [tagR x hx hl hp]
            generalize select op pf false _ = s
            rcases s with _ | _ | _ <;> simp [hp, hn, hf]
          · rw [tagL x hx hl hp]
            generalize select op pf true _ = s
            rcases s with _ | _ | _ <;> simp [hp, hn, hf]
        · by_cases hn : SameTri (ar.tri w).flip x.1
          · have hf : SameTri (ar.tri w) x.1.flip := SameTri.flip_iff.1 hn
            cases hl : x.2.fromLeft
            · rw [tagR' x hx hl hn]
              generalize select op pf false (tagAt false _ _) = s
              rcases s with _ | _ | _ <;> simp [hp, hn, hf]
            · rw [tagL' x hx hl hn]
              generalize select op pf true (tagAt false _ _) = s
              rcases s with _ | _ | _ <;> simp [hp, hn, hf]
          · have hf : ¬ SameTri (ar.tri w) x.1.flip := fun h => hn (SameTri.flip_iff.2 h)
            generalize select op pf x.2.fromLeft x.2.tag = s
            rcases s with _ | _ | _ <;> simp [hp, hn, hf]
      all_goals
        intro x hx ⟨h1, h2⟩
        simp only [Bool.and_eq_true, beq_iff_eq, decide_eq_true_eq] at h1 h2
        first
          | exact excl _ h1.2 h2.2
          | exact absurd (h1.1.symm.trans h2.1) (by decide)
    · rw [← wall_table' op pf, ← hA1, ← hA2, ← hB1, ← hB2]
      simp only [outTris, List.countP_filterMap]
      have := countP_four (ts.zip data)
        (fun x => (((select op pf x.2.fromLeft x.2.tag).map fun inv => if inv then x.1.flip else x.1).map
          fun t => decide (SameTri (ar.tri w).flip t)).getD false)
        (fun x => x.2.fromLeft == true && decide (SameTri (ar.tri w) x.1))
        (fun x => x.2.fromLeft == true && decide (SameTri (ar.tri w).flip x.1))
        (fun x => x.2.fromLeft == false && decide (SameTri (ar.tri w) x.1))
        (fun x => x.2.fromLeft == false && decide (SameTri (ar.tri w).flip x.1))
        (decide (select op pf true (tagAt true (χB (ar.behind w)) (χB (ar.front w))) = some true))
        (decide (select op pf true (tagAt false (χB (ar.behind w)) (χB (ar.front w))) = some false))
        (decide (select op pf false (tagAt true (χA (ar.behind w)) (χA (ar.front w))) = some true))
        (decide (select op pf false (tagAt false (χA (ar.behind w)) (χA (ar.front w))) = some false))
        ?_ ?_ ?_ ?_ ?_ ?_ ?_
      · rw [this]; simp only [decide_eq_true_eq]
      · intro x hx
        by_cases hp : SameTri (ar.tri w) x.1
        · have hn := excl _ hp
          have hf : SameTri (ar.tri w).flip x.1.flip := hp.flip
          cases hl : x.2.fromLeft
          · rw [tagR x hx hl hp]
            generalize select op pf false (tagAt true _ _) = s
            rcases s with _ | _ | _ <;> simp [hp, hn, hf]
          · rw [tagL x hx hl hp]
            generalize select op pf true (tagAt true _ _) = s
            rcases s with _ | _ | _ <;> simp [hp, hn, hf]
        · have hf : ¬ SameTri (ar.tri w).flip x.1.flip := fun h => hp (by simpa using SameTri.flip h)
          by_cases hn : SameTri (ar.tri w).flip x.1
          · cases hl : x.2.fromLeft
            · rw [tagR' x hx hl hn]
              generalize select op pf false (tagAt false _ _) = s
              rcases s with _ | _ | _ <;> simp [hp, hn, hf]
            · rw [tagL' x hx hl hn]
              generalize select op pf true (tagAt false _ _) = s
              rcases s with _ | _ | _ <;> simp [hp, hn, hf]
          · generalize select op pf x.2.fromLeft x.2.tag = s
            rcases s with _ | _ | _ <;> simp [hp, hn, hf]
      all_goals
        intro x hx ⟨h1, h2⟩
        simp only [Bool.and_eq_true, beq_iff_eq, decide_eq_true_eq] at h1 h2
        first
          | exact excl _ h1.2 h2.2
          | exact absurd (h1.1.symm.trans h2.1) (by decide)

end Kigumi
