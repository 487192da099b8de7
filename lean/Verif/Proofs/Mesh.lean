import Verif.Model.Mesh
import Verif.Tactics
import Mathlib.Data.List.Count

/-! Helper lemmas for mesh adjacency. -/
namespace Kigumi.Mesh
open Kigumi Outcome

theorem countP_zero_of {α} {p : α → Bool} {l : List α} (h : ∀ x ∈ l, p x = false) : l.countP p = 0 := by
  rw [List.countP_eq_zero]; intro x hx; simp [h x hx]

structure LInv (pre : List (Nat × Nat)) (s : Loop) : Prop where
  fi : s.faceIndices = pre.map (·.2)
  ix : s.index = pre.length
  ge : -1 ≤ s.prev
  len : (s.indices.length : Int) = s.prev + 1
  le : ∀ p ∈ pre, (p.1 : Int) ≤ s.prev
  val : ∀ u : Nat, (u : Int) ≤ s.prev → s.indices[u]? = some (pre.countP (fun p => decide (p.1 < u)))
  top : s.prev = -1 ∨ ∃ p ∈ pre, (p.1 : Int) = s.prev

theorem LInv.step {pre : List (Nat × Nat)} {s : Loop} (h : LInv pre s) {p : Nat × Nat} (hp : ∀ q ∈ pre, q.1 ≤ p.1) :
    LInv (pre ++ [p]) (s.step p) := by
  have hprev : s.prev ≤ p.1 := by
    rcases h.top with h1 | ⟨q, hq, h1⟩
    · rw [h1]; omega
    · have := hp q hq; omega
  refine ⟨by simp [Loop.step, h.fi], by simp [Loop.step, h.ix], by simp only [Loop.step]; omega, ?_, ?_, ?_, Or.inr ⟨p, by simp, rfl⟩⟩
  · simp only [Loop.step, List.length_append, List.length_replicate]
    have := h.len
    have := h.ge
    push_cast
    omega
  · intro q hq
    simp only [Loop.step]
    rcases List.mem_append.1 hq with hq | hq
    · have := hp q hq; omega
    · simp at hq; subst hq; omega
  · intro u hu
    simp only [Loop.step] at hu ⊢
    rw [List.countP_append]
    have hnp : List.countP (fun p => decide (p.1 < u)) [p] = 0 := by
      apply countP_zero_of
      intro x hx; simp at hx; subst hx; simp; omega
    rw [hnp]
    by_cases hlt : u < s.indices.length
    · rw [List.getElem?_append_left hlt]
      have := h.len
      simpa using h.val u (by omega)
    · rw [List.getElem?_append_right (by omega)]
      have hl := h.len
      have hg := h.ge
      rw [List.getElem?_replicate, if_pos (by omega), h.ix]
      congr 1
      symm
      rw [Nat.add_zero, List.countP_eq_length]
      intro q hq
      have := h.le q hq
      simp; omega

theorem LInv.foldl {pre : List (Nat × Nat)} : ∀ {post : List (Nat × Nat)} {s : Loop}, LInv pre s →
    (pre ++ post).Pairwise (fun x y => x.1 ≤ y.1) → LInv (pre ++ post) (post.foldl Loop.step s) := by
  intro post
  induction post generalizing pre with
  | nil => intro s h _; simpa using h
  | cons p post ih =>
    intro s h hs
    have h1 : LInv (pre ++ [p]) (s.step p) := h.step (fun q hq => (List.pairwise_append.1 hs).2.2 q hq p (by simp))
    have := ih (pre := pre ++ [p]) h1 (by simpa using hs)
    simpa using this

theorem LInv.init : LInv [] ⟨[], [], 0, -1⟩ := by
  refine ⟨rfl, rfl, by simp, by simp, by simp, ?_, Or.inl rfl⟩
  intro u hu; simp only at hu; omega

/-- What `finalize` stores. -/
theorem finalize_indices {fs : List (Tri Nat)} {sorted : List (Nat × Nat)} (hs : sorted.Pairwise (fun x y => x.1 ≤ y.1)) :
    (finalize (ofFaces fs) sorted).faceIndices = sorted.map (·.2) ∧
    (∀ u : Nat, (u = 0 ∨ ∃ p ∈ sorted, u ≤ p.1 + 1) → (finalize (ofFaces fs) sorted).indices[u]? = some (sorted.countP (fun p => decide (p.1 < u)))) ∧
    (∀ u : Nat, u ≠ 0 → (∀ p ∈ sorted, p.1 + 1 < u) → (finalize (ofFaces fs) sorted).indices[u]? = none) := by
  have h := LInv.foldl (pre := []) (post := sorted) LInv.init (by simpa using hs)
  rw [List.nil_append] at h
  have hl := h.len
  have hg := h.ge
  refine ⟨h.fi, ?_, ?_⟩
  · intro u hu
    simp only [finalize, ofFaces]
    have hub : (u : Int) ≤ (sorted.foldl Loop.step ⟨[], [], 0, -1⟩).prev + 1 := by
      rcases hu with rfl | ⟨p, hp, hu⟩
      · simpa using by omega
      · have := h.le p hp; omega
    by_cases hlt : u < (sorted.foldl Loop.step ⟨[], [], 0, -1⟩).indices.length
    · rw [List.getElem?_append_left hlt]
      exact h.val u (by omega)
    · rw [List.getElem?_append_right (by omega)]
      have : u - (sorted.foldl Loop.step ⟨[], [], 0, -1⟩).indices.length = 0 := by omega
      rw [this]
      simp only [List.getElem?_cons_zero, h.ix]
      congr 1
      symm
      rw [List.countP_eq_length]
      intro q hq
      have := h.le q hq
      simp; omega
  · intro u hu0 hu
    simp only [finalize, ofFaces]
    rw [List.getElem?_eq_none]
    simp only [List.length_append, List.length_singleton]
    rcases h.top with h1 | ⟨p, hp, h1⟩
    · omega
    · have := hu p hp; omega

theorem split_sorted (v : Nat) : ∀ {l : List (Nat × Nat)}, l.Pairwise (fun x y => x.1 ≤ y.1) →
    l = l.filter (fun p => decide (p.1 < v)) ++ l.filter (fun p => decide (p.1 = v)) ++ l.filter (fun p => decide (v < p.1)) := by
  intro l
  induction l with
  | nil => simp
  | cons x l ih =>
    intro h
    rw [List.pairwise_cons] at h
    have := ih h.2
    rcases Nat.lt_trichotomy x.1 v with hx | hx | hx
    · simp only [List.filter_cons, hx, decide_true, if_true]
      rw [show decide (x.1 = v) = false by simp; omega, show decide (v < x.1) = false by simp; omega]
      simp only [Bool.false_eq_true, if_false, List.cons_append]
      rw [← this]
    · have he : l.filter (fun p => decide (p.1 < v)) = [] := by
        rw [List.filter_eq_nil_iff]; intro y hy; have := h.1 y hy; simp; omega
      simp only [List.filter_cons, hx, decide_true, if_true]
      rw [he] at this ⊢
      rw [show decide (v < v) = false by simp]
      simp only [Bool.false_eq_true, if_false, List.nil_append, List.cons_append] at this ⊢
      rw [← this]
    · have he : l.filter (fun p => decide (p.1 < v)) = [] := by
        rw [List.filter_eq_nil_iff]; intro y hy; have := h.1 y hy; simp; omega
      have he2 : l.filter (fun p => decide (p.1 = v)) = [] := by
        rw [List.filter_eq_nil_iff]; intro y hy; have := h.1 y hy; simp; omega
      rw [he, he2] at this
      simp only [List.filter_cons, hx, decide_true, if_true]
      rw [he, he2, show decide (x.1 < v) = false by simp; omega, show decide (x.1 = v) = false by simp; omega]
      simp only [Bool.false_eq_true, if_false, List.nil_append] at this ⊢
      rw [← this]

theorem vertexRange_eq {fs : List (Tri Nat)} {sorted : List (Nat × Nat)} (hs : sorted.Pairwise (fun x y => x.1 ≤ y.1)) {v : Nat}
    (hv : ∃ p ∈ sorted, v ≤ p.1) :
    vertexRange (finalize (ofFaces fs) sorted) v = ok ((sorted.filter (fun p => decide (p.1 = v))).map (·.2)) := by
  obtain ⟨h1, h2, -⟩ := finalize_indices (fs := fs) hs
  obtain ⟨p, hp, hvp⟩ := hv
  unfold vertexRange
  rw [at!_ok.2 (h2 v (Or.inr ⟨p, hp, by omega⟩)), ok_bind, at!_ok.2 (h2 (v + 1) (Or.inr ⟨p, hp, by omega⟩)), ok_bind, h1]
  have hsplit := split_sorted v hs
  have ha : sorted.countP (fun p => decide (p.1 < v)) = (sorted.filter (fun p => decide (p.1 < v))).length := List.countP_eq_length_filter
  have hb : sorted.countP (fun p => decide (p.1 < v + 1)) = (sorted.filter (fun p => decide (p.1 < v))).length + (sorted.filter (fun p => decide (p.1 = v))).length := by
    rw [← List.countP_eq_length_filter, ← List.countP_eq_length_filter]
    clear hsplit h1 h2 ha hp hs
    induction sorted with
    | nil => rfl
    | cons x l ih =>
      simp only [List.countP_cons, ih]
      rcases Nat.lt_trichotomy x.1 v with h | h | h
      · simp [h, show x.1 < v + 1 by omega, show ¬ x.1 = v by omega]; omega
      · simp [h]; omega
      · simp [show ¬ x.1 < v by omega, show ¬ x.1 < v + 1 by omega, show ¬ x.1 = v by omega]
  rw [ha, hb]
  have hlen : sorted.length = (sorted.filter (fun p => decide (p.1 < v))).length + (sorted.filter (fun p => decide (p.1 = v))).length
      + (sorted.filter (fun p => decide (v < p.1))).length := by
    conv => lhs; rw [hsplit]
    simp only [List.length_append]
  rw [if_pos ⟨by omega, by rw [List.length_map]; omega⟩]
  have key : ∀ A B C S : List (Nat × Nat), S = A ++ B ++ C →
      ((S.map (·.2)).drop A.length).take (A.length + B.length - A.length) = B.map (·.2) := by
    rintro A B C S rfl
    rw [List.map_append, List.map_append, List.append_assoc, List.drop_left' (by simp), List.take_left' (by simp)]
  rw [key _ _ _ _ hsplit]

theorem count_pairs (v i : Nat) : ∀ (fs : List (Tri Nat)) (k : Nat), (pairs k fs).count (v, i) =
    if k ≤ i then (match fs[i - k]? with | some f => f.toList.count v | none => 0) else 0 := by
  intro fs
  induction fs with
  | nil => intro k; simp [pairs]
  | cons f fs ih =>
    intro k
    simp only [pairs, List.count_cons, ih]
    by_cases hk : k ≤ i
    · rw [if_pos hk]
      by_cases hki : k = i
      · subst hki
        rw [if_neg (by omega)]
        simp only [Nat.sub_self, List.getElem?_cons_zero, Tri.toList, List.count_cons, List.count_nil]
        simp [Prod.ext_iff]
      · rw [if_pos (by omega), show i - k = (i - (k + 1)) + 1 by omega, List.getElem?_cons_succ]
        simp [Prod.ext_iff, hki]
    · rw [if_neg hk, if_neg (by omega)]
      simp [Prod.ext_iff, show ¬ k = i by omega]

/-- The faces around `v`, with multiplicity. -/
theorem count_range {fs : List (Tri Nat)} {sorted : List (Nat × Nat)} (hp : sorted.Perm (pairs 0 fs)) (v i : Nat) :
    ((sorted.filter (fun p => decide (p.1 = v))).map (·.2)).count i = match fs[i]? with | some f => f.toList.count v | none => 0 := by
  have h1 : ∀ l : List (Nat × Nat), ((l.filter (fun p => decide (p.1 = v))).map (·.2)).count i = l.count (v, i) := by
    intro l
    induction l with
    | nil => rfl
    | cons x l ih =>
      rw [List.count_cons, ← ih, List.filter_cons]
      by_cases hx : x.1 = v
      · simp only [hx, decide_true, if_true, List.map_cons, List.count_cons]
        congr 1
        by_cases hi : x.2 = i
        · have : x = (v, i) := by rw [← hx, ← hi]
          simp [this]
        · have : x ≠ (v, i) := by rintro rfl; exact hi rfl
          simp [hi, this]
      · have : x ≠ (v, i) := by rintro rfl; exact hx rfl
        simp [hx, this]
  rw [h1, hp.count_eq, count_pairs]
  simp

theorem settle_spec : ∀ (is js : List Nat), is.Pairwise (· ≤ ·) → js.Pairwise (· ≤ ·) →
    (settle is js).1 <:+ is ∧ (settle is js).2 <:+ js ∧
    (∀ x, min (is.count x) (js.count x) = min ((settle is js).1.count x) ((settle is js).2.count x)) ∧
    (settle is js = ([], []) ∨ ∃ i is' js', settle is js = (i :: is', i :: js')) := by
  intro is js
  fun_induction settle is js with
  | case1 js => intro _ _; simp
  | case2 i is => intro _ _; simp
  | case3 i is js => intro _ _; exact ⟨List.suffix_refl _, List.suffix_refl _, fun _ => rfl, Or.inr ⟨_, _, _, rfl⟩⟩
  | case4 i is j js hne hlt ih =>
    intro h1 h2
    obtain ⟨a, b, c, d⟩ := ih (List.pairwise_cons.1 h1).2 h2
    refine ⟨a.trans (List.suffix_cons _ _), b, ?_, d⟩
    intro x
    rw [← c x]
    by_cases hx : x = i
    · subst hx
      have : (j :: js).count x = 0 := by
        rw [List.count_eq_zero]
        intro hm
        rcases List.mem_cons.1 hm with rfl | hm
        · exact hne rfl
        · have := (List.pairwise_cons.1 h2).1 x hm; omega
      rw [this]; simp
    · rw [List.count_cons_of_ne (fun h => hx h.symm)]
  | case5 i is j js hne hlt ih =>
    intro h1 h2
    obtain ⟨a, b, c, d⟩ := ih h1 (List.pairwise_cons.1 h2).2
    refine ⟨a, b.trans (List.suffix_cons _ _), ?_, d⟩
    intro x
    rw [← c x]
    by_cases hx : x = j
    · subst hx
      have : (i :: is).count x = 0 := by
        rw [List.count_eq_zero]
        intro hm
        rcases List.mem_cons.1 hm with rfl | hm
        · exact hne rfl
        · have := (List.pairwise_cons.1 h1).1 x hm; omega
      rw [this]; simp
    · rw [List.count_cons_of_ne (l := js) (fun h => hx h.symm)]

theorem collect_spec : ∀ (n : Nat) (is js : List Nat), is.length ≤ n → is.Pairwise (· ≤ ·) → js.Pairwise (· ≤ ·) →
    (collect is js).Sublist is ∧ ∀ x, (collect is js).count x = min (is.count x) (js.count x) := by
  intro n
  induction n with
  | zero =>
    intro is js hn h1 h2
    have : is = [] := List.length_eq_zero_iff.1 (by omega)
    subst this
    rw [collect]; simp [settle]
  | succ n ih =>
    intro is js hn h1 h2
    obtain ⟨a, b, c, d⟩ := settle_spec is js h1 h2
    rcases d with d | ⟨i, is', js', d⟩
    · rw [collect]
      split
      · rename_i heq; rw [d] at heq; simp at heq
      · rw [d] at c
        refine ⟨by simp, ?_⟩
        intro x; rw [c x]; simp
    · rw [collect]
      rw [d] at a b c
      split
      · rename_i heq
        rw [d] at heq
        cases heq
        have hi1 := h1.sublist a.sublist
        have hi2 := h2.sublist b.sublist
        have hlen := a.length_le
        simp at hlen
        obtain ⟨s1, s2⟩ := ih is' js' (by omega) (List.pairwise_cons.1 hi1).2 (List.pairwise_cons.1 hi2).2
        refine ⟨(s1.cons_cons i).trans a.sublist, ?_⟩
        intro x
        rw [c x, List.count_cons, List.count_cons, List.count_cons, s2 x]
        omega
      · rename_i hno; exact absurd d (hno i is' i js')

theorem increment_eq (fi : Nat) (l1 l2 l3 : List Nat) :
    (increment fi l1 l2 l3).1 ++ (increment fi l1 l2 l3).2.1 ++ (increment fi l1 l2 l3).2.2 =
      (l1 ++ l2 ++ l3).tail.dropWhile (· = fi) := by
  have key : ∀ l1 l2 l3 : List Nat, (deref l1 l2 l3) = (l1 ++ l2 ++ l3).head? := by
    intro l1 l2 l3; cases l1 <;> cases l2 <;> cases l3 <;> rfl
  have dw : ∀ l : List Nat, l.head? ≠ some fi → l.dropWhile (· = fi) = l := by
    intro l hl; cases l with
    | nil => rfl
    | cons x l => simp at hl; simp [hl]
  have dw' : ∀ l : List Nat, l.head? = some fi → l.dropWhile (· = fi) = l.tail.dropWhile (· = fi) := by
    intro l hl; cases l with
    | nil => rfl
    | cons x l => simp at hl; simp [hl]
  fun_induction increment fi l1 l2 l3 with
  | case1 x l1 l2 l3 h => simp only [List.cons_append, List.tail_cons]; rw [dw]; rw [← key]; exact h
  | case2 x l1 l2 l3 h ih => rw [ih]; simp only [List.cons_append, List.tail_cons]; rw [← dw']; rw [← key]; simpa using h
  | case3 x l2 l3 h => simp only [List.cons_append, List.tail_cons, List.nil_append]; rw [dw]; simpa [key] using h
  | case4 x l2 l3 h ih => rw [ih]; simp only [List.cons_append, List.tail_cons, List.nil_append]; rw [← dw']; have h' := not_not.1 h; rwa [key] at h'
  | case5 x l3 h => simp only [List.cons_append, List.tail_cons, List.nil_append]; rw [dw]; simpa [key] using h
  | case6 x l3 h ih => rw [ih]; simp only [List.cons_append, List.tail_cons, List.nil_append]; rw [← dw']; simpa [key] using h
  | case7 => rfl

theorem deref_eq (l1 l2 l3 : List Nat) : deref l1 l2 l3 = (l1 ++ l2 ++ l3).head? := by
  cases l1 <;> cases l2 <;> cases l3 <;> rfl

theorem filter_dropWhile (fi : Nat) (l : List Nat) : (l.dropWhile (· = fi)).filter (· ≠ fi) = l.filter (· ≠ fi) := by
  induction l with
  | nil => rfl
  | cons x l ih =>
    by_cases h : x = fi
    · subst h; simpa using ih
    · simp [h]

theorem dropWhile_head (fi : Nat) (l : List Nat) : ((l.dropWhile (· = fi)).head? ≠ some fi) := by
  induction l with
  | nil => simp
  | cons x l ih =>
    by_cases h : x = fi
    · subst h; simpa using ih
    · simp [h]

/-- What the face iterator enumerates: the first entry, then the others different from the face itself. -/
theorem collect3_eq (fi : Nat) : ∀ (n : Nat) (l1 l2 l3 : List Nat), l1.length + l2.length + l3.length ≤ n →
    collect3 fi l1 l2 l3 = match l1 ++ l2 ++ l3 with | [] => [] | x :: l => x :: l.filter (· ≠ fi) := by
  intro n
  induction n with
  | zero =>
    intro l1 l2 l3 hn
    have h1 : l1 = [] := List.length_eq_zero_iff.1 (by omega)
    have h2 : l2 = [] := List.length_eq_zero_iff.1 (by omega)
    have h3 : l3 = [] := List.length_eq_zero_iff.1 (by omega)
    subst h1 h2 h3
    rw [collect3]; simp [deref]
  | succ n ih =>
    intro l1 l2 l3 hn
    rw [collect3]
    have hd := deref_eq l1 l2 l3
    have hinc := increment_eq fi l1 l2 l3
    have hlen := increment_length fi l1 l2 l3
    split
    · rename_i h
      rw [hd] at h
      have : l1 ++ l2 ++ l3 = [] := List.head?_eq_none_iff.1 h
      rw [this]
    · rename_i x h
      rw [hd] at h
      cases hl : l1 ++ l2 ++ l3 with
      | nil => rw [hl] at h; simp at h
      | cons y l =>
        rw [hl] at h hinc
        simp at h; subst h
        have hne : l1 ≠ [] ∨ l2 ≠ [] ∨ l3 ≠ [] := by
          by_contra hc; simp at hc; obtain ⟨rfl, rfl, rfl⟩ := hc; simp at hl
        rw [ih _ _ _ (by have := hlen hne; omega), hinc]
        simp only [List.tail_cons]
        congr 1
        have hf := filter_dropWhile fi l
        have hh := dropWhile_head fi l
        cases hw : l.dropWhile (· = fi) with
        | nil => rw [hw] at hf; simpa using hf
        | cons z l' =>
          rw [hw] at hf hh
          have : z ≠ fi := by simpa using hh
          rw [← hf, List.filter_cons]
          simp [this]

end Kigumi.Mesh
