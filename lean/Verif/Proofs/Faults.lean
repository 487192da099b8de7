import Verif.Spec.Faults
import Verif.Tactics

/-!
# Defects under a change of names

Vertices with numbers and vertices that are places are related one to one.
-/
namespace Kigumi.Spec.Defects
open Kigumi Kigumi.Spec.Graph

section
variable {α β : Type} [DecidableEq α] [DecidableEq β] {R : α → β → Prop}

/-- One to one. -/
structure OneToOne (R : α → β → Prop) : Prop where
  right : ∀ {a b b'}, R a b → R a b' → b = b'
  left : ∀ {a a' b}, R a b → R a' b → a = a'

theorem OneToOne.flip (h : OneToOne R) : OneToOne (fun b a => R a b) := ⟨fun h1 h2 => h.left h1 h2, fun h1 h2 => h.right h1 h2⟩

theorem OneToOne.eq_iff (h : OneToOne R) {a a' : α} {b b' : β} (h1 : R a b) (h2 : R a' b') : a = a' ↔ b = b' := by
  constructor
  · rintro rfl; exact h.right h1 h2
  · rintro rfl; exact h.left h1 h2

/-- Related ends. -/
def Pairs (R : α → β → Prop) (e : α × α) (e' : β × β) : Prop := R e.1 e'.1 ∧ R e.2 e'.2

/-- Related corners. -/
def Corners (R : α → β → Prop) (f : Tri α) (t : Tri β) : Prop := R f.a t.a ∧ R f.b t.b ∧ R f.c t.c

theorem OneToOne.pair_iff (h : OneToOne R) {e e' : α × α} {d d' : β × β} (h1 : Pairs R e d) (h2 : Pairs R e' d') : e = e' ↔ d = d' := by
  rw [Prod.ext_iff, Prod.ext_iff, h.eq_iff h1.1 h2.1, h.eq_iff h1.2 h2.2]

theorem OneToOne.proper_iff (h : OneToOne R) {f : Tri α} {t : Tri β} (hc : Corners R f t) : Proper3 f ↔ Proper3 t := by
  unfold Proper3
  rw [ne_eq, ne_eq, ne_eq, h.eq_iff hc.1 hc.2.1, h.eq_iff hc.2.1 hc.2.2, h.eq_iff hc.1 hc.2.2]

theorem count_related (h : OneToOne R) {es : List (α × α)} {es' : List (β × β)} (he : List.Forall₂ (Pairs R) es es') {x : α × α} {y : β × β} (hxy : Pairs R x y) : es.count x = es'.count y := by
  induction he with
  | nil => rfl
  | cons hd _ ih => rw [List.count_cons, List.count_cons, ih]; simp only [beq_iff_eq, h.pair_iff hd hxy]

theorem sides_related {f : Tri α} {t : Tri β} (hc : Corners R f t) : List.Forall₂ (Pairs R) (sides f) (sides t) :=
  .cons ⟨hc.1, hc.2.1⟩ (.cons ⟨hc.2.1, hc.2.2⟩ (.cons ⟨hc.2.2, hc.1⟩ .nil))

/-- The proper triangles correspond. -/
theorem proper_related (h : OneToOne R) {fs : List (Tri α)} {ts : List (Tri β)} (hr : List.Forall₂ (Corners R) fs ts) :
    List.Forall₂ (Corners R) (fs.filter fun f => decide (Proper3 f)) (ts.filter fun t => decide (Proper3 t)) := by
  induction hr with
  | nil => exact .nil
  | @cons f t _ _ hd _ ih =>
    rw [List.filter_cons, List.filter_cons]
    by_cases hp : Proper3 f
    · rw [if_pos (by simpa using hp), if_pos (by simpa using (h.proper_iff hd).1 hp)]
      exact .cons hd ih
    · rw [if_neg (by simpa using hp), if_neg (by simpa using fun h' => hp ((h.proper_iff hd).2 h'))]
      exact ih

theorem flatMap_related {γ δ : Type} {Q : Tri α → Tri β → Prop} {S : γ → δ → Prop} {F : Tri α → List γ} {G : Tri β → List δ} {fs : List (Tri α)} {ts : List (Tri β)} (hr : List.Forall₂ Q fs ts) (hFG : ∀ f t, Q f t → List.Forall₂ S (F f) (G t)) :
    List.Forall₂ S (fs.flatMap F) (ts.flatMap G) := by
  induction hr with
  | nil => exact .nil
  | cons hd _ ih => rw [List.flatMap_cons, List.flatMap_cons]; exact List.rel_append (hFG _ _ hd) ih

theorem uses_related (h : OneToOne R) {fs : List (Tri α)} {ts : List (Tri β)} (hr : List.Forall₂ (Corners R) fs ts) {v w : α} {p q : β} (h1 : R v p) (h2 : R w q) : uses fs v w = uses ts p q :=
  count_related h (flatMap_related (proper_related h hr) fun _ _ hc => sides_related hc) ⟨h1, h2⟩

theorem opposite_related (h : OneToOne R) {f : Tri α} {t : Tri β} (hc : Corners R f t) {v : α} {p : β} (hv : R v p) : List.Forall₂ (Pairs R) (oppositeSide f v) (oppositeSide t p) := by
  obtain ⟨h1, h2, h3⟩ := hc
  unfold oppositeSide
  simp only [h.eq_iff hv h1, h.eq_iff hv h2, h.eq_iff hv h3]
  split
  · exact .cons ⟨h2, h3⟩ .nil
  · split
    · exact .cons ⟨h3, h1⟩ .nil
    · split
      · exact .cons ⟨h1, h2⟩ .nil
      · exact .nil

theorem link_related (h : OneToOne R) {fs : List (Tri α)} {ts : List (Tri β)} (hr : List.Forall₂ (Corners R) fs ts) {v : α} {p : β} (hv : R v p) : List.Forall₂ (Pairs R) (link fs v) (link ts p) :=
  flatMap_related (proper_related h hr) fun _ _ hc => opposite_related h hc hv

theorem forall₂_mem_right {γ δ : Type} {S : γ → δ → Prop} {l : List γ} {m : List δ} (h : List.Forall₂ S l m) {y : δ} (hy : y ∈ m) : ∃ x ∈ l, S x y := by
  induction h with
  | nil => simp at hy
  | cons hd _ ih =>
    rcases List.mem_cons.1 hy with rfl | hy
    · exact ⟨_, List.mem_cons_self, hd⟩
    · obtain ⟨x, hx, hs⟩ := ih hy; exact ⟨x, List.mem_cons_of_mem _ hx, hs⟩

theorem forall₂_mem_left {γ δ : Type} {S : γ → δ → Prop} {l : List γ} {m : List δ} (h : List.Forall₂ S l m) {x : γ} (hx : x ∈ l) : ∃ y ∈ m, S x y := by
  obtain ⟨y, hy, hs⟩ := forall₂_mem_right h.flip hx
  exact ⟨y, hy, hs⟩

theorem countP_related {γ δ : Type} {S : γ → δ → Prop} {l : List γ} {m : List δ} (h : List.Forall₂ S l m) {P : γ → Bool} {Q : δ → Bool} (hPQ : ∀ x y, S x y → P x = Q y) : l.countP P = m.countP Q := by
  induction h with
  | nil => rfl
  | cons hd _ ih => rw [List.countP_cons, List.countP_cons, ih, hPQ _ _ hd]

theorem reach_related (h : OneToOne R) {es : List (α × α)} {es' : List (β × β)} (he : List.Forall₂ (Pairs R) es es') {i j : α} {p : β} (hr : Reach es i j) (hp : R i p) : ∃ q, R j q ∧ Reach es' p q := by
  induction hr with
  | refl => exact ⟨p, hp, .refl⟩
  | @step j k e _ hmem hj ih =>
    obtain ⟨q, hq, hreach⟩ := ih
    obtain ⟨d, hd, h1, h2⟩ := forall₂_mem_left he hmem
    rcases hj with rfl | rfl
    · exact ⟨d.2, h2, .step hreach hd (Or.inl (Prod.ext (h.right h1 hq) rfl))⟩
    · exact ⟨d.1, h1, .step hreach hd (Or.inr (Prod.ext rfl (h.right h2 hq)))⟩

theorem pathOrCycle_related (h : OneToOne R) {es : List (α × α)} {es' : List (β × β)} (he : List.Forall₂ (Pairs R) es es') (hp : PathOrCycle es) : PathOrCycle es' := by
  obtain ⟨⟨hloop, hmult⟩, hreach, hdeg⟩ := hp
  refine ⟨⟨fun e he' => ?_, fun i j => ?_⟩, fun x y hx hy => ?_, fun x => ?_⟩
  · obtain ⟨d, hd, h1, h2⟩ := forall₂_mem_right he he'
    exact fun hc => hloop d hd ((h.eq_iff h1 h2).2 hc)
  · by_cases hex : ∃ e ∈ es', Joins e i j
    · obtain ⟨e, he', hj⟩ := hex
      obtain ⟨d, hd, h1, h2⟩ := forall₂_mem_right he he'
      have : ∃ a b, R a i ∧ R b j := by
        rcases hj with rfl | rfl
        · exact ⟨_, _, h1, h2⟩
        · exact ⟨_, _, h2, h1⟩
      obtain ⟨a, b, ha, hb⟩ := this
      have e1 : mult es a b = mult es' i j := countP_related he fun x y hxy => by
        rw [decide_eq_decide]
        unfold Joins
        rw [h.pair_iff hxy (e' := (a, b)) (d' := (i, j)) ⟨ha, hb⟩, h.pair_iff hxy (e' := (b, a)) (d' := (j, i)) ⟨hb, ha⟩]
      rw [← e1]; exact hmult a b
    · have : mult es' i j = 0 := by
        unfold mult
        rw [List.countP_eq_zero]
        intro e he' hj
        exact hex ⟨e, he', by simpa using hj⟩
      omega
  · have ends : ∀ x, End es' x → ∃ a, R a x ∧ End es a := by
      rintro x ⟨e, he', hxe⟩
      obtain ⟨d, hd, h1, h2⟩ := forall₂_mem_right he he'
      rcases hxe with rfl | rfl
      · exact ⟨d.1, h1, d, hd, Or.inl rfl⟩
      · exact ⟨d.2, h2, d, hd, Or.inr rfl⟩
    obtain ⟨a, ha, hae⟩ := ends x hx
    obtain ⟨b, hb, hbe⟩ := ends y hy
    obtain ⟨q, hq, hr⟩ := reach_related h he (hreach a b hae hbe) ha
    rw [h.right hq hb] at hr
    exact hr
  · by_cases hex : ∃ e ∈ es', e.1 = x ∨ e.2 = x
    · obtain ⟨e, he', hj⟩ := hex
      obtain ⟨d, hd, h1, h2⟩ := forall₂_mem_right he he'
      have : ∃ a, R a x := by
        rcases hj with rfl | rfl
        · exact ⟨_, h1⟩
        · exact ⟨_, h2⟩
      obtain ⟨a, ha⟩ := this
      have e1 : deg es a = deg es' x := countP_related he fun y z hyz => by
        rw [decide_eq_decide, h.eq_iff hyz.1 ha, h.eq_iff hyz.2 ha]
      rw [← e1]; exact hdeg a
    · have : deg es' x = 0 := by
        unfold deg
        rw [List.countP_eq_zero]
        intro e he' hj
        exact hex ⟨e, he', by simpa using hj⟩
      omega

theorem pathOrCycle_iff (h : OneToOne R) {es : List (α × α)} {es' : List (β × β)} (he : List.Forall₂ (Pairs R) es es') : PathOrCycle es ↔ PathOrCycle es' :=
  ⟨pathOrCycle_related h he, pathOrCycle_related h.flip he.flip⟩

/-- Ends of sides are corners. -/
theorem uses_corner {fs : List (Tri α)} {v w : α} (h : 0 < uses fs v w) : ∃ f ∈ fs, v ∈ f.toList ∧ w ∈ f.toList ∧ v ≠ w := by
  unfold uses at h
  rw [List.count_pos_iff, List.mem_flatMap] at h
  obtain ⟨f, hf, hs⟩ := h
  obtain ⟨hf, hp⟩ := List.mem_filter.1 hf
  obtain ⟨p1, p2, p3⟩ : Proper3 f := by simpa using hp
  refine ⟨f, hf, ?_⟩
  simp only [sides, List.mem_cons, List.not_mem_nil, or_false, Prod.mk.injEq] at hs
  rcases hs with ⟨rfl, rfl⟩ | ⟨rfl, rfl⟩ | ⟨rfl, rfl⟩
  · exact ⟨by simp [Tri.toList], by simp [Tri.toList], p1⟩
  · exact ⟨by simp [Tri.toList], by simp [Tri.toList], p2⟩
  · exact ⟨by simp [Tri.toList], by simp [Tri.toList], fun e => p3 e.symm⟩

theorem link_corner {fs : List (Tri α)} {v : α} (h : link fs v ≠ []) : ∃ f ∈ fs, v ∈ f.toList := by
  obtain ⟨e, he⟩ := List.exists_mem_of_ne_nil _ h
  unfold link at he
  obtain ⟨f, hf, hs⟩ := List.mem_flatMap.1 he
  refine ⟨f, (List.mem_filter.1 hf).1, ?_⟩
  unfold oppositeSide at hs
  simp only [Tri.toList, List.mem_cons, List.not_mem_nil, or_false]
  split at hs
  · next h => exact Or.inl h
  · split at hs
    · next h => exact Or.inr (Or.inl h)
    · split at hs
      · next h => exact Or.inr (Or.inr h)
      · simp at hs
end

/-! ## Counting -/
section
variable {β : Type} {R : Nat → β → Prop}

/-- As many as there are numbers. -/
theorem counted_related (h : OneToOne R) {l : List Nat} (hl : l.Nodup) {S : Nat → Prop} {T : β → Prop} (hm : ∀ v, v ∈ l ↔ S v) (hST : ∀ v p, R v p → (S v ↔ T p)) (hS : ∀ v, S v → ∃ p, R v p) (hT : ∀ p, T p → ∃ v, R v p) : Counted l.length T := by
  have : ∀ (l : List Nat), l.Nodup → (∀ v ∈ l, S v) → ∃ m : List β, m.Nodup ∧ m.length = l.length ∧ ∀ p, p ∈ m ↔ ∃ v ∈ l, R v p := by
    intro l
    induction l with
    | nil => intro _ _; exact ⟨[], .nil, rfl, by simp⟩
    | cons v l ih =>
      intro hn hs
      obtain ⟨m, m1, m2, m3⟩ := ih (List.nodup_cons.1 hn).2 fun x hx => hs x (List.mem_cons_of_mem _ hx)
      obtain ⟨p, hp⟩ := hS v (hs v List.mem_cons_self)
      refine ⟨p :: m, List.nodup_cons.2 ⟨fun hc => ?_, m1⟩, by simp [m2], fun q => ?_⟩
      · obtain ⟨w, hw, hwp⟩ := (m3 p).1 hc
        rw [h.left hwp hp] at hw
        exact (List.nodup_cons.1 hn).1 hw
      · rw [List.mem_cons, m3]
        constructor
        · rintro (rfl | ⟨w, hw, hr⟩)
          · exact ⟨v, List.mem_cons_self, hp⟩
          · exact ⟨w, List.mem_cons_of_mem _ hw, hr⟩
        · rintro ⟨w, hw, hr⟩
          rcases List.mem_cons.1 hw with rfl | hw
          · exact Or.inl (h.right hr hp)
          · exact Or.inr ⟨w, hw, hr⟩
  obtain ⟨m, m1, m2, m3⟩ := this l hl fun v hv => (hm v).1 hv
  refine ⟨m, m1, m2, fun p => ?_⟩
  rw [m3]
  constructor
  · rintro ⟨v, hv, hr⟩; exact (hST v p hr).1 ((hm v).1 hv)
  · intro hp
    obtain ⟨v, hr⟩ := hT p hp
    exact ⟨v, (hm v).2 ((hST v p hr).2 hp), hr⟩

/-- As many edges as there are pairs of numbers. -/
theorem counted_edges (h : OneToOne R) {l : List (Nat × Nat)} (hl : l.Nodup) {S : Nat → Nat → Prop} {T : β → β → Prop} (hm : ∀ v w, (v, w) ∈ l ↔ v < w ∧ (S v w ∨ S w v)) (hST : ∀ v w p q, R v p → R w q → (S v w ↔ T p q))
    (hS : ∀ v w, S v w → v ≠ w ∧ (∃ p, R v p) ∧ ∃ q, R w q) (hT : ∀ p q, T p q → (∃ v, R v p) ∧ ∃ w, R w q) : Counted l.length (fun e : Sym2 β => ∃ p q, e = s(p, q) ∧ T p q) := by
  have : ∀ (l : List (Nat × Nat)), l.Nodup → (∀ e ∈ l, e.1 < e.2 ∧ (S e.1 e.2 ∨ S e.2 e.1)) → ∃ m : List (Sym2 β), m.Nodup ∧ m.length = l.length ∧ ∀ e, e ∈ m ↔ ∃ d ∈ l, ∃ p q, R d.1 p ∧ R d.2 q ∧ e = s(p, q) := by
    intro l
    induction l with
    | nil => intro _ _; exact ⟨[], .nil, rfl, by simp⟩
    | cons d l ih =>
      intro hn hs
      obtain ⟨m, m1, m2, m3⟩ := ih (List.nodup_cons.1 hn).2 fun x hx => hs x (List.mem_cons_of_mem _ hx)
      obtain ⟨hlt, hd⟩ := hs d List.mem_cons_self
      obtain ⟨⟨p, hp⟩, q, hq⟩ : (∃ p, R d.1 p) ∧ ∃ q, R d.2 q := by
        rcases hd with hd | hd
        · exact (hS _ _ hd).2
        · exact (hS _ _ hd).2.symm
      refine ⟨s(p, q) :: m, List.nodup_cons.2 ⟨fun hc => ?_, m1⟩, by simp [m2], fun e => ?_⟩
      · obtain ⟨d', hd', p', q', h1, h2, he⟩ := (m3 _).1 hc
        have hlt' := (hs d' (List.mem_cons_of_mem _ hd')).1
        rcases Sym2.eq_iff.1 he with ⟨rfl, rfl⟩ | ⟨rfl, rfl⟩
        · have : d' = d := Prod.ext (h.left h1 hp) (h.left h2 hq)
          rw [this] at hd'
          exact (List.nodup_cons.1 hn).1 hd'
        · have e1 := h.left h1 hq
          have e2 := h.left h2 hp
          omega
      · rw [List.mem_cons, m3]
        constructor
        · rintro (rfl | ⟨w, hw, hr⟩)
          · exact ⟨d, List.mem_cons_self, p, q, hp, hq, rfl⟩
          · exact ⟨w, List.mem_cons_of_mem _ hw, hr⟩
        · rintro ⟨w, hw, p', q', h1, h2, rfl⟩
          rcases List.mem_cons.1 hw with rfl | hw
          · rw [h.right h1 hp, h.right h2 hq]; exact Or.inl rfl
          · exact Or.inr ⟨w, hw, p', q', h1, h2, rfl⟩
  obtain ⟨m, m1, m2, m3⟩ := this l hl fun e he => (hm e.1 e.2).1 he
  refine ⟨m, m1, m2, fun e => ?_⟩
  rw [m3]
  constructor
  · rintro ⟨⟨v, w⟩, hd, p, q, h1, h2, rfl⟩
    rcases ((hm v w).1 hd).2 with hs | hs
    · exact ⟨p, q, rfl, (hST v w p q h1 h2).1 hs⟩
    · exact ⟨q, p, Sym2.eq_swap, (hST w v q p h2 h1).1 hs⟩
  · rintro ⟨p, q, rfl, ht⟩
    obtain ⟨⟨v, hv⟩, w, hw⟩ := hT p q ht
    have hs := (hST v w p q hv hw).2 ht
    rcases Nat.lt_or_gt_of_ne (hS v w hs).1 with hlt | hlt
    · exact ⟨(v, w), (hm v w).2 ⟨hlt, Or.inl hs⟩, p, q, hv, hw, rfl⟩
    · exact ⟨(w, v), (hm w v).2 ⟨hlt, Or.inr hs⟩, q, p, hw, hv, Sym2.eq_swap⟩

theorem counted_self {l : List Nat} (hl : l.Nodup) {T : Nat → Prop} (hm : ∀ v, v ∈ l ↔ T v) : Counted l.length T := ⟨l, hl, rfl, hm⟩
end

end Kigumi.Spec.Defects
