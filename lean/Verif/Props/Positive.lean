import Verif.Proofs.Positive
import Verif.Props.Valuation

/-! # C110: volumes compare sets -/
namespace Kigumi.Props
open Kigumi Outcome Geo Spec.Triangles Spec.Side FaceFace Space
open Kigumi.Spec (HasCorners truth onSets Expr RegionInv)
open Kigumi.Corefine (Env Gives both)
open Kigumi.Side (Ok ok_of_proper)
variable {D : Type}

/-- The coordinates of the points of the set are bounded. -/
def BoundedSet (A : P3 → Prop) : Prop := ∃ M : ℚ, ∀ x, A x → Near M x ⟨0, 0, 0⟩

/-- A solid without points is the empty region. -/
theorem kind_empty {r : Region P3 D} {ts : List (Tri P3)} {χ : P3 → Prop} (h : IsSolid r ts χ) : r.kind = .empty ↔ ∀ x, ¬ χ x := by
  have hk := h.kind
  constructor
  · intro k
    rw [k] at hk
    exact hk
  · intro hn
    cases k : r.kind with
    | empty => rfl
    | full => rw [k] at hk; exact absurd (hk ⟨0, 0, 0⟩) (hn _)
    | boundaryDefined =>
      rw [k] at hk
      obtain ⟨t, ht⟩ := List.exists_mem_of_ne_nil _ hk
      have hin : In t t.a := ⟨1, 0, 0, by norm_num, by apply p3_ext <;> simp [combo], by norm_num, le_rfl, le_rfl⟩
      obtain ⟨y, -, hy, -⟩ := Crossing.dense h.complex h.once h.bounds (W := []) (by simp) (.inr ⟨t, ht, hin⟩) one_pos
      exact absurd hy (hn y)

theorem empty_volume {r : Region P3 D} {ts : List (Tri P3)} {χ : P3 → Prop} (h : IsSolid r ts χ) (k : r.kind = .empty) (o : P3) : volume o r = 0 := by
  have := h.inv
  unfold RegionInv at this
  rw [k] at this
  have this : r.boundary = Soup.empty := this
  simp [volume, this, Soup.empty, enclosed]

/-- **The volume of a bounded solid is never negative, and it is zero for the empty region only.** -/
theorem C110_positive {r : Region P3 D} {ts : List (Tri P3)} {χ : P3 → Prop} (h : IsSolid r ts χ) (hM : BoundedSet χ) (o : P3) : 0 ≤ volume o r ∧ (volume o r = 0 ↔ r.kind = .empty) ∧ (0 < volume o r ↔ ∃ x, χ x) := by
  obtain ⟨M, hM⟩ := hM
  obtain ⟨h1, h2⟩ := solid_positive h hM o
  have key : 0 < volume o r ↔ ∃ x, χ x := by
    refine ⟨fun k => ?_, fun ⟨x, hx⟩ => h2 x hx⟩
    by_contra hn
    push Not at hn
    rw [empty_volume h ((kind_empty h).2 hn)] at k
    exact lt_irrefl _ k
  refine ⟨h1, ⟨fun k => ?_, fun k => empty_volume h k o⟩, key⟩
  rw [kind_empty h]
  intro x hx
  have := h2 x hx
  linarith

/-- The same for regions that are a set, apart from points of a surface. -/
theorem denotes_positive {r : Region P3 D} {A : P3 → Prop} {X : List (Tri P3)} (hX : ∀ t ∈ X, Proper t) (h : Denotes r A (Surface X)) (hM : BoundedSet fun x => A x ∧ ¬ Surface X x) (o : P3) :
    0 ≤ volume o r ∧ (volume o r = 0 ↔ r.kind = .empty) ∧ (0 < volume o r ↔ ∃ x, ¬ Surface X x ∧ A x) := by
  obtain ⟨ts, χ, hs, hsub, hag⟩ := h
  obtain ⟨M, hM⟩ := hM
  have near : ∀ x, χ x → ∃ y, Near 1 y x ∧ χ y ∧ ¬ Surface X y := fun x hx =>
    Crossing.dense hs.complex hs.once hs.bounds (fun t ht => ok_of_proper (hX t ht)) (.inl hx) one_pos
  obtain ⟨h1, h2, h3⟩ := C110_positive hs ⟨M + 1, fun x hx => by
    obtain ⟨y, ⟨n1, n2, n3, n4, n5, n6⟩, hy, hyX⟩ := near x hx
    obtain ⟨m1, m2, m3, m4, m5, m6⟩ := hM y ⟨(hag y hyX).1 hy, hyX⟩
    simp only [Near, sub_zero] at *
    refine ⟨by linarith, by linarith, by linarith, by linarith, by linarith, by linarith⟩⟩ o
  refine ⟨h1, h2, h3.trans ⟨fun ⟨x, hx⟩ => ?_, fun ⟨x, hX, hx⟩ => ⟨x, (hag x hX).2 hx⟩⟩⟩
  obtain ⟨y, -, hy, hyX⟩ := near x hx
  exact ⟨y, hyX, (hag y hyX).1 hy⟩

/-- Regions for operations on sets. -/
theorem denotes_op {r r' : Region P3 D} {A B : Set P3} {X : List (Tri P3)} (h : Denotes r (fun x => x ∈ A) (Surface X)) (h' : Denotes r' (fun x => x ∈ B) (Surface X)) (op : Op) : ∃ d : Region P3 D, Denotes d (fun x => x ∈ onSets op A B) (Surface X) := by
  obtain ⟨ts, χ1, s1, l1, a1⟩ := h
  obtain ⟨us, χ2, s2, l2, a2⟩ := h'
  obtain ⟨res, h⟩ := combined (orig := both ts us) (χ := fun c => if c then χ1 else χ2) s1 s2 ⟨0, 0, 0⟩
  obtain ⟨vs, χ3, s3, l3, a3⟩ := (h op).1
  refine ⟨res op, vs, χ3, s3, fun x hx => (l3 x hx).elim (l1 x) (l2 x), fun x hx => ?_⟩
  rw [a3 x fun k => hx (k.elim (l1 x) (l2 x))]
  have e1 : x ∈ {x | χ1 x} ↔ x ∈ A := a1 x hx
  have e2 : x ∈ {x | χ2 x} ↔ x ∈ B := a2 x hx
  cases op <;> simp_all [onSets, symmDiff]

/-- **A part of a bounded set has at most its volume, and less if it is not all of it.** -/
theorem C110_monotone {r r' : Region P3 D} {A B : Set P3} {X : List (Tri P3)} (hX : ∀ t ∈ X, Proper t) (h : Denotes r (fun x => x ∈ A) (Surface X)) (h' : Denotes r' (fun x => x ∈ B) (Surface X)) (hM : BoundedSet fun x => x ∈ B ∧ ¬ Surface X x)
    (hsub : ∀ x, ¬ Surface X x → x ∈ A → x ∈ B) (o : P3) : volume o r ≤ volume o r' ∧ (volume o r = volume o r' ↔ ∀ x, ¬ Surface X x → x ∈ B → x ∈ A) := by
  obtain ⟨d, hd⟩ := denotes_op h' h .difference
  have ed : ∀ x, x ∈ onSets Op.difference B A ↔ x ∈ B ∧ x ∉ A := fun x => Iff.rfl
  obtain ⟨p1, -, p3⟩ := denotes_positive hX hd (hM.imp fun M hM x hx => hM x ⟨((ed x).1 hx.1).1, hx.2⟩) o
  have e := C109_pieces hX h' [(r, A), (d, onSets Op.difference B A)] (by simp [h, hd]) (by
    intro x _
    simp only [List.pairwise_cons, List.mem_cons, List.not_mem_nil, or_false, forall_eq, IsEmpty.forall_iff, implies_true, List.Pairwise.nil, and_true]
    exact fun k => ((ed x).1 k.2).2 k.1) (by
    intro x hx
    simp only [List.mem_cons, List.not_mem_nil, or_false, exists_eq_or_imp, exists_eq_left, ed]
    have := hsub x hx
    tauto) o
  simp only [List.map_cons, List.map_nil, List.sum_cons, List.sum_nil, add_zero] at e
  refine ⟨by linarith, fun k x hx hB => ?_, fun k => ?_⟩
  · by_contra hA
    have := p3.2 ⟨x, hx, (ed x).2 ⟨hB, hA⟩⟩
    linarith
  · have : ¬ 0 < volume o d := fun hp => by
      obtain ⟨x, hx, hxd⟩ := p3.1 hp
      exact ((ed x).1 hxd).2 (k x hx ((ed x).1 hxd).1)
    linarith

/-- **Solids with bounded complements** have volumes that are not positive, and zero only if the complement has no points off the surface. -/
theorem C110_outside {r : Region P3 D} {ts : List (Tri P3)} {χ : P3 → Prop} (h : IsSolid r ts χ) (hM : BoundedSet fun x => ¬ χ x) (o : P3) : volume o r ≤ 0 ∧ (volume o r = 0 ↔ ∀ x, ¬ Surface ts x → χ x) := by
  have hX := h.complex.proper
  have hr : Denotes r (fun x => x ∈ {x | χ x}) (Surface ts) := ⟨ts, χ, h, fun _ h => h, fun _ _ => Iff.rfl⟩
  obtain ⟨d, hd⟩ := denotes_op hr hr .F
  have ed : ∀ x, x ∈ onSets Op.F {x | χ x} {x | χ x} ↔ ¬ χ x := fun x => by simp [onSets]
  obtain ⟨p1, -, p3⟩ := denotes_positive hX hd (hM.imp fun M hM x hx => hM x ((ed x).1 hx.1)) o
  have hf : Denotes (Region.fullRegion : Region P3 D) (fun x => x ∈ (Set.univ : Set P3)) (Surface ts) := by
    obtain ⟨us, χ', h1, h2, h3⟩ := denotes_special (D := D) True Region.fullRegion rfl (.inr ⟨rfl, trivial⟩)
    exact ⟨us, χ', h1, fun x hx => by obtain ⟨t, ht, -⟩ := h2 x hx; simp at ht, fun x _ => h3 x fun ⟨t, ht, _⟩ => by simp at ht⟩
  have e := C109_pieces hX hf [(r, {x | χ x}), (d, onSets Op.F {x | χ x} {x | χ x})] (by simp only [List.forall_mem_cons]; exact ⟨hr, hd, by simp⟩) (by
    intro x _
    simp only [List.pairwise_cons, List.mem_cons, List.not_mem_nil, or_false, forall_eq, IsEmpty.forall_iff, implies_true, List.Pairwise.nil, and_true, ed]
    exact fun k => k.2 k.1) (by
    intro x hx
    simp only [List.mem_cons, List.not_mem_nil, or_false, exists_eq_or_imp, exists_eq_left, ed, Set.mem_univ, Set.mem_setOf_eq, true_iff]
    exact em _) o
  have e0 : volume o (Region.fullRegion : Region P3 D) = 0 := rfl
  rw [e0] at e
  simp only [List.map_cons, List.map_nil, List.sum_cons, List.sum_nil, add_zero] at e
  refine ⟨by linarith, fun k x hx => ?_, fun k => ?_⟩
  · by_contra hn
    have := p3.2 ⟨x, hx, (ed x).2 hn⟩
    linarith
  · have : ¬ 0 < volume o d := fun hp => by
      obtain ⟨x, hx, hxd⟩ := p3.1 hp
      exact (ed x).1 hxd (k x hx)
    linarith

/-! ## Expressions -/
section
variable {reg : Nat → Region P3 D} {tris : Nat → List (Tri P3)} {χ : Nat → P3 → Prop}

/-- **Results of expressions can be compared by their volumes.** If one expression denotes a part of the bounded set that another one denotes, the result of the first has at most the volume of the result of the second, and the same volume only if it is the same set, apart from
points of the surfaces of the operands; whatever the threads do and whatever CGAL returns. -/
theorem C110_expressions {e e' : Expr} (hs : Separate reg tris χ e.leaves) (hs' : Separate reg tris χ e'.leaves) {r r' : Region P3 D} (he : Evaluates reg e r) (he' : Evaluates reg e' r') (hM : BoundedSet fun x => x ∈ e'.value fun i => {x | χ i x})
    (hsub : ∀ x, (x ∈ e.value fun i => {x | χ i x}) → x ∈ e'.value fun i => {x | χ i x}) (o : P3) :
    volume o r ≤ volume o r' ∧ (volume o r = volume o r' ↔ ∀ x, (∀ i ∈ e.leaves ++ e'.leaves, ¬ Surface (tris i) x) → (x ∈ e'.value fun i => {x | χ i x}) → x ∈ e.value fun i => {x | χ i x}) := by
  have hX : ∀ t ∈ surfaces tris [e, e'], Proper t := by
    intro t ht
    simp only [surfaces, List.mem_flatMap, List.mem_cons, List.not_mem_nil, or_false] at ht
    obtain ⟨q, rfl | rfl, i, hi, ht⟩ := ht
    exacts [(hs.solid i hi).complex.proper t ht, (hs'.solid i hi).complex.proper t ht]
  have off : ∀ x, ¬ Surface (surfaces tris [e, e']) x ↔ ∀ i ∈ e.leaves ++ e'.leaves, ¬ Surface (tris i) x := by
    intro x
    rw [surfaces_iff]
    simp only [List.mem_cons, List.not_mem_nil, or_false, exists_eq_or_imp, exists_eq_left, List.mem_append]
    push Not
    exact ⟨fun ⟨h1, h2⟩ i hi => hi.elim (h1 i) (h2 i), fun h => ⟨fun i hi => h i (.inl hi), fun i hi => h i (.inr hi)⟩⟩
  have := C110_monotone hX (denotes_sub (C85_expression hs he) fun x ⟨i, hi, hx⟩ => surfaces_iff.2 ⟨e, by simp, i, hi, hx⟩) (denotes_sub (C85_expression hs' he') fun x ⟨i, hi, hx⟩ => surfaces_iff.2 ⟨e', by simp, i, hi, hx⟩)
    (hM.imp fun M hM x hx => hM x hx.1) (fun x _ => hsub x) o
  simpa only [off] using this

/-- **The volume of the result of an expression that denotes a bounded set** is not negative, and it is zero exactly if the result is the empty region, that is, if the set has no points, apart from points of the surfaces of the operands. -/
theorem C110_result {e : Expr} (hs : Separate reg tris χ e.leaves) {r : Region P3 D} (he : Evaluates reg e r) (hM : BoundedSet fun x => x ∈ e.value fun i => {x | χ i x}) (o : P3) :
    0 ≤ volume o r ∧ (volume o r = 0 ↔ r.kind = .empty) ∧ (0 < volume o r ↔ ∃ x, (∀ i ∈ e.leaves, ¬ Surface (tris i) x) ∧ x ∈ e.value fun i => {x | χ i x}) := by
  have hX : ∀ t ∈ surfaces tris [e], Proper t := by
    intro t ht
    simp only [surfaces, List.mem_flatMap, List.mem_cons, List.not_mem_nil, or_false] at ht
    obtain ⟨q, rfl, i, hi, ht⟩ := ht
    exact (hs.solid i hi).complex.proper t ht
  have off : ∀ x, ¬ Surface (surfaces tris [e]) x ↔ ∀ i ∈ e.leaves, ¬ Surface (tris i) x := by
    intro x
    rw [surfaces_iff]
    simp only [List.mem_cons, List.not_mem_nil, or_false, exists_eq_left]
    push Not
    rfl
  have := denotes_positive hX (denotes_sub (C85_expression hs he) fun x ⟨i, hi, hx⟩ => surfaces_iff.2 ⟨e, by simp, i, hi, hx⟩) (hM.imp fun M hM x hx => hM x hx.1) o
  simpa only [off] using this
end

/-! ## Single operations -/
section
variable {E : Env} {E' : Mix.Env} {orig : Bool → List (Tri P3)} {χ : Bool → P3 → Prop} {a b : Region P3 D}
variable (ha : IsSolid a (orig true) (χ true)) (hb : IsSolid b (orig false) (χ false)) (hE : E.Valid orig) (hE' : E'.Valid orig) (hg : NoFourOnCircle orig) (hman : ManifoldWhereCoinciding orig) (hM : ∀ c, BoundedSet (χ c))
include ha hb hE hE' hg hman hM

/-- **Intersections, differences and unions of bounded solids**, under the conditions of C73: an intersection has at most the volume of each operand, and a union at least; a union has at most the volume of the two together. Equalities mean that one operand contains the
other one, or that the two have no point in common. -/
theorem C110_operations {bb : Builder P3 D} {w : Global.Warnings} (h : Mix.Built E' (Gives E) a b bb w) (pf : Bool) (o : P3) : ∃ u k d s, bb.run .union pf = ok u ∧ bb.run .intersection pf = ok k ∧ bb.run .difference pf = ok d ∧
    bb.run .symmetricDifference pf = ok s ∧
    (volume o k ≤ volume o a ∧ volume o a ≤ volume o u ∧ volume o u ≤ volume o a + volume o b ∧ 0 ≤ volume o k ∧ 0 ≤ volume o d ∧ 0 ≤ volume o s) ∧
    (volume o k = 0 ↔ k.kind = .empty) ∧ (volume o d = 0 ↔ d.kind = .empty) ∧ (volume o s = 0 ↔ s.kind = .empty) ∧
    (volume o u = volume o a + volume o b ↔ ∀ x, ¬ Surface (orig true) x → ¬ Surface (orig false) x → ¬ (χ true x ∧ χ false x)) ∧
    (volume o k = volume o a ↔ ∀ x, ¬ Surface (orig true) x → ¬ Surface (orig false) x → χ true x → χ false x) ∧
    (volume o u = volume o b ↔ ∀ x, ¬ Surface (orig true) x → ¬ Surface (orig false) x → χ true x → χ false x) ∧
    (volume o s = 0 ↔ ∀ x, ¬ Surface (orig true) x → ¬ Surface (orig false) x → (χ true x ↔ χ false x)) := by
  have hX := proper_append ha.complex.proper hb.complex.proper
  have run : ∀ op, ∃ r, bb.run op pf = ok r ∧ Denotes r (fun x => x ∈ onSets op {x | χ true x} {x | χ false x}) (Surface (orig true ++ orig false)) := by
    intro op
    obtain ⟨-, r, h1, h2⟩ := C73_boolean ha hb hE hg hman hE' h op pf
    exact ⟨r, h1, denotes_sub h2 fun x hx => surface_append.2 hx⟩
  obtain ⟨u, hu, du⟩ := run .union
  obtain ⟨k, hk, dk⟩ := run .intersection
  obtain ⟨d, hd, dd⟩ := run .difference
  obtain ⟨s, hs, ds⟩ := run .symmetricDifference
  have off : ∀ {P : P3 → Prop}, (∃ x, ¬ Surface (orig true ++ orig false) x ∧ P x) ↔ ∃ x, ¬ Surface (orig true) x ∧ ¬ Surface (orig false) x ∧ P x := by
    intro P
    simp only [surface_append, not_or, and_assoc]
  have bound : ∀ {P : P3 → Prop}, (∀ x, P x → χ true x ∨ χ false x) → BoundedSet fun x => P x ∧ ¬ Surface (orig true ++ orig false) x := by
    intro P hP
    obtain ⟨M1, h1⟩ := hM true
    obtain ⟨M2, h2⟩ := hM false
    refine ⟨max M1 M2, fun x hx => (hP x hx.1).elim (fun k => Side.near_mono (le_max_left _ _) (h1 x k)) (fun k => Side.near_mono (le_max_right _ _) (h2 x k))⟩
  have mu : ∀ x, x ∈ onSets Op.union {x | χ true x} {x | χ false x} ↔ χ true x ∨ χ false x := fun x => Iff.rfl
  have mk : ∀ x, x ∈ onSets Op.intersection {x | χ true x} {x | χ false x} ↔ χ true x ∧ χ false x := fun x => Iff.rfl
  have md : ∀ x, x ∈ onSets Op.difference {x | χ true x} {x | χ false x} ↔ χ true x ∧ ¬ χ false x := fun x => Iff.rfl
  have ms : ∀ x, x ∈ onSets Op.symmetricDifference {x | χ true x} {x | χ false x} ↔ (χ true x ∧ ¬ χ false x) ∨ (χ false x ∧ ¬ χ true x) := fun x => Iff.rfl
  obtain ⟨k1, k2, k3⟩ := denotes_positive hX dk (bound fun x hx => .inl ((mk x).1 hx).1) o
  obtain ⟨d1, d2, d3⟩ := denotes_positive hX dd (bound fun x hx => .inl ((md x).1 hx).1) o
  obtain ⟨s1, s2, s3⟩ := denotes_positive hX ds (bound fun x hx => ((ms x).1 hx).elim (fun h => .inl h.1) (fun h => .inr h.1)) o
  have da : Denotes a (fun x => x ∈ {x | χ true x}) (Surface (orig true ++ orig false)) := ⟨_, _, ha, fun x hx => surface_append.2 (.inl hx), fun _ _ => Iff.rfl⟩
  have db : Denotes b (fun x => x ∈ {x | χ false x}) (Surface (orig true ++ orig false)) := ⟨_, _, hb, fun x hx => surface_append.2 (.inr hx), fun _ _ => Iff.rfl⟩
  obtain ⟨ka, ka'⟩ := C110_monotone hX dk da (bound fun x hx => .inl hx) (fun x _ hx => ((mk x).1 hx).1) o
  obtain ⟨au, -⟩ := C110_monotone hX da du (bound fun x hx => (mu x).1 hx) (fun x _ hx => (mu x).2 (.inl hx)) o
  obtain ⟨-, bu'⟩ := C110_monotone hX db du (bound fun x hx => (mu x).1 hx) (fun x _ hx => (mu x).2 (.inr hx)) o
  have ie := C108_inclusion_exclusion ha hb hE hE' hg hman h h hu hk o
  simp only [surface_append, not_or, and_imp, mu, mk, Set.mem_setOf_eq] at ka' bu'
  rw [off] at k3 s3
  refine ⟨u, k, d, s, hu, hk, hd, hs, ⟨ka, au, by linarith, k1, d1, s1⟩, k2, d2, s2, ?_, ?_, ?_, ?_⟩
  · constructor
    · intro e x h1 h2 h3
      have := k3.2 ⟨x, h1, h2, (mk x).2 h3⟩
      linarith
    · intro hn
      have : ¬ 0 < volume o k := fun hp => by
        obtain ⟨x, h1, h2, h3⟩ := k3.1 hp
        exact hn x h1 h2 ((mk x).1 h3)
      linarith
  · rw [ka']
    exact ⟨fun h x h1 h2 h3 => (h x h1 h2 h3).2, fun h x h1 h2 h3 => ⟨h3, h x h1 h2 h3⟩⟩
  · rw [eq_comm, bu']
    exact ⟨fun h x h1 h2 h3 => h x h1 h2 (.inl h3), fun h x h1 h2 h3 => h3.elim (h x h1 h2) id⟩
  · constructor
    · intro e x h1 h2
      by_contra hn
      have hd : (χ true x ∧ ¬ χ false x) ∨ (χ false x ∧ ¬ χ true x) := by
        by_cases c1 : χ true x <;> by_cases c2 : χ false x
        · exact absurd ⟨fun _ => c2, fun _ => c1⟩ hn
        · exact .inl ⟨c1, c2⟩
        · exact .inr ⟨c2, c1⟩
        · exact absurd ⟨fun h => absurd h c1, fun h => absurd h c2⟩ hn
      have := s3.2 ⟨x, h1, h2, (ms x).2 hd⟩
      linarith
    · intro hn
      have : ¬ 0 < volume o s := fun hp => by
        obtain ⟨x, h1, h2, h3⟩ := s3.1 hp
        exact ((ms x).1 h3).elim (fun h => h.2 ((hn x h1 h2).1 h.1)) (fun h => h.2 ((hn x h1 h2).2 h.1))
      linarith
end

/-! ## Three tetrahedra through each other -/

theorem tetra_bounded {p q r s : P3} (h : 0 < det4 p q r s) : BoundedSet (Within (Space.tetra p q r s)) := tetra_box h

/-- The volume of the part of the needle that is in the block and not in the skewer: more than nothing, and less than the volume of the needle. -/
example {r : Region P3 Unit} (h : Evaluates threeSolids threeExpr r) (o : P3) : 0 < volume o r ∧ volume o r < 62 ∧ r.kind ≠ .empty := by
  obtain ⟨h1, h2, h3⟩ := three_dets
  have v : volume o (threeSolids 1) = 62 := by
    show volume o (simplex ⟨1, 1, -3⟩ ⟨3, 2, -4⟩ ⟨2, 4, -3⟩ ⟨2, 2, 9⟩) = 62
    rw [simplex_volume]
    decide +kernel
  have off : ∀ {p q r s : P3}, 0 < det4 p q r s → ∀ x, (∃ t ∈ Space.tetra p q r s, 0 < (Side.plane t).eval x) ∨ Within (Space.tetra p q r s) x → ¬ Surface (Space.tetra p q r s) x := by
    intro p q r s hd x hx hS
    rcases hx with ⟨t, ht, hp⟩ | hw
    · exact absurd (closed_of_surface (tetra_convex hd) hS t ht) (not_le.2 hp)
    · obtain ⟨t, ht, hin⟩ := hS
      exact (hw t ht).ne (Side.plane_in hin)
  have val : ∀ x, (x ∈ threeExpr.value fun i => {x | Within (threeTris i) x}) ↔ (Within block x ∧ Within needle x) ∧ ¬ Within skewer x := fun x => Iff.rfl
  have hb := tetra_bounded h2
  have bnd : BoundedSet fun x => x ∈ threeExpr.value fun i => {x | Within (threeTris i) x} := hb.imp fun M hM x hx => hM x ((val x).1 hx).1.2
  obtain ⟨p1, p2, p3⟩ := C110_result three_separate h bnd o
  obtain ⟨q1, q2⟩ := C110_expressions (e' := .leaf 1) three_separate (separate_sub three_separate (by decide) (by decide)) h (.leaf 1) hb (fun x hx => ((val x).1 hx).1.2) o
  have pos : 0 < volume o r := by
    have w0 : Within block ⟨2, 9/4, 1/2⟩ := by unfold Within; decide +kernel
    have w1 : Within needle ⟨2, 9/4, 1/2⟩ := by unfold Within; decide +kernel
    have w2 : ∃ t ∈ skewer, 0 < (Side.plane t).eval ⟨2, 9/4, 1/2⟩ := by decide +kernel
    refine p3.2 ⟨⟨2, 9/4, 1/2⟩, ?_, (val _).2 ⟨⟨w0, w1⟩, fun k => ?_⟩⟩
    · have : ∀ i ∈ [0, 1, 2], ¬ Surface (threeTris i) ⟨2, 9/4, 1/2⟩ := by
        simp only [List.mem_cons, List.not_mem_nil, or_false]
        rintro i (rfl | rfl | rfl)
        exacts [off h1 _ (.inr w0), off h2 _ (.inr w1), off h3 _ (.inl w2)]
      exact this
    · obtain ⟨t, ht, hp⟩ := w2
      exact absurd (k t ht) (not_lt.2 hp.le)
  refine ⟨pos, ?_, fun k => pos.ne' (p2.2 k)⟩
  rw [← v]
  refine lt_of_le_of_ne q1 fun k => ?_
  have w0 : ∃ t ∈ block, 0 < (Side.plane t).eval ⟨2, 9/4, -2⟩ := by decide +kernel
  have w1 : Within needle ⟨2, 9/4, -2⟩ := by unfold Within; decide +kernel
  have w2 : ∃ t ∈ skewer, 0 < (Side.plane t).eval ⟨2, 9/4, -2⟩ := by decide +kernel
  have := q2.1 k ⟨2, 9/4, -2⟩ (by
    have : ∀ i ∈ [0, 1, 2, 1], ¬ Surface (threeTris i) ⟨2, 9/4, -2⟩ := by
      simp only [List.mem_cons, List.not_mem_nil, or_false]
      rintro i (rfl | rfl | rfl | rfl)
      exacts [off h1 _ (.inl w0), off h2 _ (.inr w1), off h3 _ (.inl w2), off h2 _ (.inr w1)]
    exact this) w1
  obtain ⟨t, ht, hp⟩ := w0
  exact absurd (((val _).1 this).1.1 t ht) (not_lt.2 hp.le)

/-- A tetrahedron that is not bounded, because it is turned inside out: its volume is negative. -/
example (o : P3) : volume o (simplex ⟨0, 0, 0⟩ ⟨0, 8, 0⟩ ⟨8, 0, 0⟩ ⟨0, 0, 8⟩) = -512 := by
  rw [simplex_volume]
  decide +kernel

end Kigumi.Props
