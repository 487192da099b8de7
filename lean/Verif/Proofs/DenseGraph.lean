import Verif.Model.DenseGraph
import Verif.Spec.Graph
import Verif.Tactics
import Mathlib.Tactic.Ring
import Mathlib.Tactic.Linarith
import Mathlib.Algebra.BigOperators.Group.List.Basic

/-! Helper lemmas for the packed graph. -/
namespace Kigumi.DenseGraph
open Kigumi Outcome Spec.Graph

theorem two_tri (i : Nat) : 2 * (i * (i + 1) / 2) = i * (i + 1) := by
  have : i * (i + 1) % 2 = 0 := by
    rcases Nat.mod_two_eq_zero_or_one i with h | h <;> simp [Nat.mul_mod, Nat.add_mod, h]
  omega

/-- Start of row `i`. -/
def row (n : Nat) : Nat → Nat
  | 0 => 0
  | i + 1 => row n i + (n - i)

theorem row_eq (n : Nat) : ∀ i, i ≤ n → n * i + i = row n i + i * (i + 1) / 2 := by
  intro i
  induction i with
  | zero => simp [row]
  | succ i ih =>
    intro h
    have := ih (by omega)
    have h1 := two_tri i
    have h2 := two_tri (i + 1)
    have h3 : (i + 1) * (i + 1 + 1) = i * (i + 1) + 2 * (i + 1) := by ring
    have h4 : n * (i + 1) = n * i + n := by ring
    simp only [row]
    omega

theorem row_last (n : Nat) : row n n = n * (n + 1) / 2 := by
  have := row_eq n n le_rfl
  have h := two_tri n
  have h3 : n * (n + 1) = n * n + n := by ring
  omega

theorem row_mono (n : Nat) {i j : Nat} (h : i ≤ j) : row n i ≤ row n j := by
  induction h with
  | refl => exact le_rfl
  | step _ ih => simp only [row]; omega

/-- The packed position of `(i, j)` with `i ≤ j`. -/
def pos (n i j : Nat) : Nat := n * i + j - i * (i + 1) / 2

theorem pos_eq {n i j : Nat} (h : i ≤ j) (hj : j < n) : pos n i j = row n i + (j - i) := by
  have := row_eq n i (by omega)
  unfold pos; omega

theorem pos_lt {n i j : Nat} (h : i ≤ j) (hj : j < n) : pos n i j < n * (n + 1) / 2 := by
  rw [pos_eq h hj, ← row_last]
  have : row n (i + 1) ≤ row n n := row_mono n (by omega)
  simp only [row] at this
  omega

theorem pos_inj {n i j i' j' : Nat} (h : i ≤ j) (hj : j < n) (h' : i' ≤ j') (hj' : j' < n)
    (e : pos n i j = pos n i' j') : i = i' ∧ j = j' := by
  rw [pos_eq h hj, pos_eq h' hj'] at e
  rcases Nat.lt_trichotomy i i' with hlt | heq | hgt
  · have := row_mono n (show i + 1 ≤ i' by omega); simp only [row] at this; omega
  · subst heq; omega
  · have := row_mono n (show i' + 1 ≤ i by omega); simp only [row] at this; omega

theorem cell_ok (g : Graph) {i j : Nat} (hi : i < g.order) (hj : j < g.order) :
    cell g i j = ok (pos g.order (min i j) (max i j)) := by
  unfold cell pos
  rw [if_neg (by omega), if_neg (by omega)]
  by_cases h : i > j
  · simp [h, Nat.min_eq_right (Nat.le_of_lt h), Nat.max_eq_left (Nat.le_of_lt h)]
  · simp [h, Nat.min_eq_left (Nat.le_of_not_lt h), Nat.max_eq_right (Nat.le_of_not_lt h)]

theorem cell_inj {n i j i' j' : Nat} (hi : i < n) (hj : j < n) (hi' : i' < n) (hj' : j' < n) :
    pos n (min i j) (max i j) = pos n (min i' j') (max i' j') ↔ (i = i' ∧ j = j') ∨ (i = j' ∧ j = i') := by
  constructor
  · intro e
    have := pos_inj (by omega) (by omega) (by omega) (by omega) e
    omega
  · rintro (⟨rfl, rfl⟩ | ⟨rfl, rfl⟩)
    · rfl
    · rw [Nat.min_comm, Nat.max_comm]

theorem joins_comm {e : Nat × Nat} {i j : Nat} : Joins e i j ↔ Joins e j i := Or.comm

theorem mult_comm (es : List (Nat × Nat)) (i j : Nat) : mult es i j = mult es j i := by
  unfold mult; congr 1; funext e; exact decide_eq_decide.2 joins_comm

theorem mult_cons (e : Nat × Nat) (es : List (Nat × Nat)) (i j : Nat) :
    mult (e :: es) i j = mult es i j + if Joins e i j then 1 else 0 := by
  unfold mult; rw [List.countP_cons]; simp

theorem mult_append (es fs : List (Nat × Nat)) (i j : Nat) : mult (es ++ fs) i j = mult es i j + mult fs i j := by
  unfold mult; rw [List.countP_append]

/-- The graph stores the multigraph `es`. -/
structure Rep (g : Graph) (n : Nat) (es : List (Nat × Nat)) : Prop where
  order : g.order = n
  len : g.m.length = n * (n + 1) / 2
  val : ∀ i j, i < n → j < n → g.m[pos n (min i j) (max i j)]? = some (mult es i j % valueMod)

theorem Rep.create (n : Nat) : Rep (create n) n [] := by
  refine ⟨rfl, by simp [DenseGraph.create], ?_⟩
  intro i j hi hj
  have := pos_lt (n := n) (i := min i j) (j := max i j) (by omega) (by omega)
  simp [DenseGraph.create, List.getElem?_replicate, this, mult]

theorem Rep.get {g n es} (h : Rep g n es) {i j : Nat} (hi : i < n) (hj : j < n) :
    DenseGraph.get g i j = ok (mult es i j % valueMod) := by
  unfold DenseGraph.get
  rw [cell_ok g (by rw [h.order]; exact hi) (by rw [h.order]; exact hj), ok_bind, at!_ok, h.order]
  exact h.val i j hi hj

theorem Rep.addEdge {g n es} (h : Rep g n es) {i j : Nat} (hi : i < n) (hj : j < n) :
    ∃ g', DenseGraph.addEdge g i j = ok g' ∧ Rep g' n (es ++ [(i, j)]) := by
  unfold DenseGraph.addEdge
  have hv := h.val i j hi hj
  rw [cell_ok g (by rw [h.order]; exact hi) (by rw [h.order]; exact hj), ok_bind, h.order]
  rw [at!_ok.2 hv, ok_bind]
  refine ⟨_, rfl, rfl, by simp [h.len], ?_⟩
  intro i' j' hi' hj'
  have hlt := pos_lt (n := n) (i := min i j) (j := max i j) (by omega) (by omega)
  rw [← h.len] at hlt
  have hj1 : mult [(i, j)] i' j' = if Joins (i, j) i' j' then 1 else 0 := by
    have := mult_cons (i, j) [] i' j'; simpa [mult] using this
  have hJ : Joins (i, j) i' j' ↔ (i = i' ∧ j = j') ∨ (i = j' ∧ j = i') := by simp [Joins]
  rw [List.getElem?_set, mult_append, hj1, h.val i' j' hi' hj']
  by_cases he : (i = i' ∧ j = j') ∨ (i = j' ∧ j = i')
  · have hp := (cell_inj hi hj hi' hj').2 he
    have hm : mult es i j = mult es i' j' := by
      rcases he with ⟨rfl, rfl⟩ | ⟨rfl, rfl⟩
      · rfl
      · exact mult_comm _ _ _
    rw [if_pos hp, if_pos hlt, if_pos (hJ.2 he), hm]
    simp [valueMod]
  · have hp : ¬ pos n (min i j) (max i j) = pos n (min i' j') (max i' j') :=
      fun e => he ((cell_inj hi hj hi' hj').1 e)
    rw [if_neg hp, if_neg (fun e => he (hJ.1 e))]; simp

theorem Rep.addEdges {n : Nat} (fs : List (Nat × Nat)) (hf : ∀ e ∈ fs, e.1 < n ∧ e.2 < n) :
    ∀ {g es}, Rep g n es → ∃ g', DenseGraph.addEdges g fs = ok g' ∧ Rep g' n (es ++ fs) := by
  induction fs with
  | nil => intro g es h; exact ⟨g, rfl, by simpa using h⟩
  | cons e fs ih =>
    intro g es h
    obtain ⟨g1, h1, r1⟩ := h.addEdge (hf e (by simp)).1 (hf e (by simp)).2
    obtain ⟨g2, h2, r2⟩ := ih (fun e he => hf e (by simp [he])) r1
    exact ⟨g2, by simp [DenseGraph.addEdges, h1, h2], by simpa using r2⟩

/-! ### Degree -/

theorem sum_ite (n : Nat) (p : Nat → Prop) [DecidablePred p] (k : Nat) (hk : k < n) (h : ∀ j, j < n → (p j ↔ j = k)) :
    ((List.range n).map (fun j => if p j then 1 else 0)).sum = 1 := by
  induction n with
  | zero => omega
  | succ n ih =>
    rw [List.range_succ, List.map_append, List.sum_append]
    by_cases hkn : k = n
    · have h0 : (List.range n).map (fun j => if p j then 1 else 0) = (List.range n).map (fun _ => 0) := by
        apply List.map_congr_left
        intro j hj
        rw [List.mem_range] at hj
        have := h j (by omega)
        rw [if_neg]; rw [this]; omega
      have hn : p n := (h n (by omega)).2 hkn.symm
      rw [h0]; simp [hn]
    · have := ih (by omega) (fun j hj => h j (by omega))
      have hn : ¬ p n := fun hp => hkn ((h n (by omega)).1 hp).symm
      rw [this]; simp [hn]

theorem sum_zero (n : Nat) (p : Nat → Prop) [DecidablePred p] (h : ∀ j, j < n → ¬ p j) :
    ((List.range n).map (fun j => if p j then 1 else 0)).sum = 0 := by
  have h0 : (List.range n).map (fun j => if p j then 1 else 0) = (List.range n).map (fun _ => 0) := by
    apply List.map_congr_left
    intro j hj
    rw [List.mem_range] at hj
    rw [if_neg (h j hj)]
  rw [h0]; simp

theorem sum_mult {n : Nat} (i : Nat) (hi : i < n) : ∀ (es : List (Nat × Nat)), (∀ e ∈ es, e.1 < n ∧ e.2 < n) →
    ((List.range n).map (fun j => mult es i j)).sum = deg es i := by
  intro es
  induction es with
  | nil => intro _; simp [mult, deg]
  | cons e es ih =>
    intro h
    have h1 := ih (fun e he => h e (by simp [he]))
    have he := h e (by simp)
    have : (List.range n).map (fun j => mult (e :: es) i j)
        = (List.range n).map (fun j => mult es i j + if Joins e i j then 1 else 0) := by
      apply List.map_congr_left; intro j _; exact mult_cons e es i j
    rw [this, List.sum_map_add, h1]
    unfold deg
    rw [List.countP_cons]
    congr 1
    by_cases hd : e.1 = i ∨ e.2 = i
    · rw [if_pos (by simpa using hd)]
      rcases hd with hd | hd
      · apply sum_ite n _ e.2 he.2
        intro j _
        rcases e with ⟨x, y⟩
        simp only [Joins, Prod.mk.injEq] at *
        subst hd; constructor
        · rintro (h | h) <;> omega
        · intro h; left; exact ⟨rfl, h.symm⟩
      · apply sum_ite n _ e.1 he.1
        intro j _
        rcases e with ⟨x, y⟩
        simp only [Joins, Prod.mk.injEq] at *
        subst hd; constructor
        · rintro (h | h) <;> omega
        · intro h; right; exact ⟨h.symm, rfl⟩
    · rw [if_neg (by simpa using hd)]
      apply sum_zero
      intro j _
      rcases e with ⟨x, y⟩
      simp only [Joins, Prod.mk.injEq] at *
      omega

theorem degreeLoop_eq {g n es} (h : Rep g n es) {i : Nat} (hi : i < n) : ∀ (js : List Nat), (∀ j ∈ js, j < n) → ∀ d,
    degreeLoop g i js (d % valueMod) = ok ((d + (js.map (fun j => mult es i j)).sum) % valueMod) := by
  intro js
  induction js with
  | nil => intro _ d; simp [degreeLoop]
  | cons j js ih =>
    intro hj d
    rw [degreeLoop, h.get hi (hj j (by simp)), ok_bind]
    have : (d % valueMod + mult es i j % valueMod) % valueMod = (d + mult es i j) % valueMod := by
      rw [← Nat.add_mod]
    rw [this, ih (fun j hj' => hj j (by simp [hj']))]
    simp [Nat.add_assoc]

theorem deg_le (es : List (Nat × Nat)) (i : Nat) : deg es i ≤ es.length := List.countP_le_length
theorem mult_le (es : List (Nat × Nat)) (i j : Nat) : mult es i j ≤ es.length := List.countP_le_length

theorem Rep.degree {g n es} (h : Rep g n es) (hes : ∀ e ∈ es, e.1 < n ∧ e.2 < n) (hlen : es.length < valueMod)
    {i : Nat} (hi : i < n) : DenseGraph.degree g i = ok (deg es i) := by
  have := degreeLoop_eq h hi (List.range n) (by simp) 0
  unfold DenseGraph.degree
  rw [h.order]
  simp only [Nat.zero_mod] at this
  rw [this, Nat.zero_add, sum_mult i hi es hes, Nat.mod_eq_of_lt]
  exact Nat.lt_of_le_of_lt (deg_le es i) hlen

theorem mult_pos {es : List (Nat × Nat)} {i j : Nat} : mult es i j ≠ 0 ↔ ∃ e ∈ es, Joins e i j := by
  unfold mult
  rw [← Nat.pos_iff_ne_zero, List.countP_pos_iff]; simp

theorem Rep.hasEdge {g n es} (h : Rep g n es) (hlen : es.length < valueMod) {i j : Nat} (hi : i < n) (hj : j < n) :
    DenseGraph.hasEdge g i j = ok (decide (∃ e ∈ es, Joins e i j)) := by
  unfold DenseGraph.hasEdge
  rw [h.get hi hj, ok_bind, Nat.mod_eq_of_lt (Nat.lt_of_le_of_lt (mult_le es i j) hlen)]
  congr 1
  by_cases hm : mult es i j = 0
  · have : ¬ ∃ e ∈ es, Joins e i j := fun h => mult_pos.2 h hm
    rw [decide_eq_false this]; simp [hm]
  · rw [decide_eq_true (mult_pos.1 hm)]; simp [hm]

/-! ### Simplicity and maximum degree -/

theorem simpleRow_eq {g n es} (h : Rep g n es) (hlen : es.length < valueMod) {i : Nat} (hi : i < n) :
    ∀ (js : List Nat), (∀ j ∈ js, j < n) → simpleRow g i js = ok (decide (∀ j ∈ js, mult es i j ≤ 1)) := by
  intro js
  induction js with
  | nil => intro _; simp [simpleRow]
  | cons j js ih =>
    intro hj
    rw [simpleRow, h.get hi (hj j (by simp)), ok_bind, Nat.mod_eq_of_lt (Nat.lt_of_le_of_lt (mult_le es i j) hlen),
      ih (fun j hj' => hj j (by simp [hj']))]
    by_cases hm : mult es i j > 1
    · rw [if_pos hm]; congr 1; symm; rw [decide_eq_false_iff_not]; intro hh; have := hh j (by simp); omega
    · rw [if_neg hm]; congr 1; rw [decide_eq_decide]; simp; intro _; omega

theorem simpleLoop_eq {g n es} (h : Rep g n es) (hlen : es.length < valueMod) :
    ∀ (is : List Nat), (∀ i ∈ is, i < n) → simpleLoop g is = ok (decide (∀ i ∈ is, mult es i i = 0 ∧
      ∀ j, j < n → i + 1 ≤ j → mult es i j ≤ 1)) := by
  intro is
  induction is with
  | nil => intro _; simp [simpleLoop]
  | cons i is ih =>
    intro hi
    have hi0 := hi i (by simp)
    rw [simpleLoop, h.get hi0 hi0, ok_bind, Nat.mod_eq_of_lt (Nat.lt_of_le_of_lt (mult_le es i i) hlen),
      h.order, simpleRow_eq h hlen hi0 _ (by simp; omega), ok_bind, ih (fun i hi' => hi i (by simp [hi']))]
    have hrow : (∀ j ∈ (List.range n).filter (fun j => decide (i + 1 ≤ j)), mult es i j ≤ 1) ↔
        ∀ j, j < n → i + 1 ≤ j → mult es i j ≤ 1 := by simp
    by_cases hm : mult es i i = 0
    · rw [if_neg (by simp [hm])]
      by_cases hr : ∀ j, j < n → i + 1 ≤ j → mult es i j ≤ 1
      · rw [if_pos (by rw [decide_eq_true_eq, hrow]; exact hr)]
        congr 1; rw [decide_eq_decide]
        constructor
        · intro hh k hk
          rw [List.mem_cons] at hk
          rcases hk with rfl | hk
          · exact ⟨hm, hr⟩
          · exact hh k hk
        · intro hh k hk; exact hh k (by simp [hk])
      · rw [if_neg (by rw [decide_eq_true_eq, hrow]; exact hr)]
        congr 1; symm; rw [decide_eq_false_iff_not]; intro hh; exact hr (hh i (by simp)).2
    · rw [if_pos (by simpa using hm)]
      congr 1; symm; rw [decide_eq_false_iff_not]; intro hh; exact hm (hh i (by simp)).1

theorem maxDegreeLoop_eq {g n es} (h : Rep g n es) (hes : ∀ e ∈ es, e.1 < n ∧ e.2 < n) (hlen : es.length < valueMod) :
    ∀ (is : List Nat), (∀ i ∈ is, i < n) → ∀ d, ∃ m, maxDegreeLoop g is d = ok m ∧ d ≤ m ∧
      (∀ i ∈ is, deg es i ≤ m) ∧ (m = d ∨ ∃ i ∈ is, m = deg es i) := by
  intro is
  induction is with
  | nil => intro _ d; exact ⟨d, rfl, le_rfl, by simp, Or.inl rfl⟩
  | cons i is ih =>
    intro hi d
    obtain ⟨m, h1, h2, h3, h4⟩ := ih (fun i hi' => hi i (by simp [hi'])) (max d (deg es i))
    refine ⟨m, by rw [maxDegreeLoop, h.degree hes hlen (hi i (by simp)), ok_bind, h1], by omega, ?_, ?_⟩
    · intro k hk
      rw [List.mem_cons] at hk
      rcases hk with rfl | hk
      · omega
      · exact h3 k hk
    · rcases h4 with h4 | ⟨k, hk, h4⟩
      · by_cases hc : d ≤ deg es i
        · right; exact ⟨i, by simp, by omega⟩
        · left; omega
      · right; exact ⟨k, by simp [hk], h4⟩

/-! ### Connectivity search -/

/-- Neighbour relation of the stored graph. -/
def Adj (es : List (Nat × Nat)) (i j : Nat) : Prop := ∃ e ∈ es, Joins e i j

theorem pushLoop_eq {g n es} (h : Rep g n es) (hlen : es.length < valueMod) {i : Nat} (hi : i < n) (visited : List Bool)
    (hv : visited.length = n) : ∀ (js : List Nat), (∀ j ∈ js, j < n) → ∀ stack, ∃ pushed,
      pushLoop g i visited js stack = ok (pushed ++ stack) ∧
      ∀ j, j ∈ pushed ↔ j ∈ js ∧ Adj es i j ∧ visited[j]? = some false := by
  intro js
  induction js with
  | nil => intro _ stack; exact ⟨[], rfl, by simp⟩
  | cons j js ih =>
    intro hj stack
    have hj0 := hj j (by simp)
    have hjs := fun k hk => hj k (List.mem_cons_of_mem j hk)
    rw [pushLoop, h.hasEdge hlen hi hj0, ok_bind]
    by_cases he : ∃ e ∈ es, Joins e i j
    · rw [if_pos (decide_eq_true he)]
      have hvj : visited[j]? = some visited[j] := List.getElem?_eq_getElem (by omega)
      rw [at!_ok.2 hvj, ok_bind]
      cases hb : visited[j]
      · obtain ⟨p, h1, h2⟩ := ih hjs (j :: stack)
        refine ⟨p ++ [j], by simp [h1], ?_⟩
        intro k
        rw [List.mem_append, h2, List.mem_singleton, List.mem_cons]
        constructor
        · rintro (⟨a, b⟩ | rfl)
          · exact ⟨Or.inr a, b⟩
          · exact ⟨Or.inl rfl, he, by rw [hvj, hb]⟩
        · rintro ⟨rfl | a, b⟩
          · right; rfl
          · left; exact ⟨a, b⟩
      · obtain ⟨p, h1, h2⟩ := ih hjs stack
        refine ⟨p, by simp [h1], ?_⟩
        intro k
        rw [h2, List.mem_cons]
        constructor
        · rintro ⟨a, b⟩; exact ⟨Or.inr a, b⟩
        · rintro ⟨rfl | a, b, c⟩
          · rw [hvj, hb] at c; simp at c
          · exact ⟨a, b, c⟩
    · rw [if_neg (by simpa using he)]
      obtain ⟨p, h1, h2⟩ := ih hjs stack
      refine ⟨p, h1, ?_⟩
      intro k
      rw [h2, List.mem_cons]
      constructor
      · rintro ⟨a, b⟩; exact ⟨Or.inr a, b⟩
      · rintro ⟨rfl | a, b, c⟩
        · exact absurd b he
        · exact ⟨a, b, c⟩

/-- Loop invariant of the search started at vertex 0. -/
structure SInv (n : Nat) (es : List (Nat × Nat)) (visited : List Bool) (stack : List Nat) : Prop where
  len : visited.length = n
  lt : ∀ i ∈ stack, i < n
  reachS : ∀ i ∈ stack, Reach es 0 i
  reachV : ∀ i : Nat, visited[i]? = some true → Reach es 0 i
  start : visited[0]? = some true ∨ 0 ∈ stack
  closed : ∀ i j : Nat, visited[i]? = some true → Adj es i j → j < n → visited[j]? = some true ∨ j ∈ stack
  above : ∀ pre x post, stack = pre ++ x :: post → visited[x]? = some true → ∀ j, Adj es x j →
    visited[j]? = some false → j ∈ pre

/-- Number of unvisited vertices. -/
def unvisited (visited : List Bool) : Nat := visited.countP (fun b => !b)

theorem unvisited_set {visited : List Bool} {i : Nat} (hv : visited[i]? = some false) :
    unvisited (visited.set i true) < unvisited visited := by
  unfold unvisited
  induction visited generalizing i with
  | nil => simp at hv
  | cons b bs ih =>
    cases i with
    | zero => simp at hv; subst hv; simp
    | succ i =>
      simp at hv
      have := ih hv
      simp only [List.set_cons_succ, List.countP_cons]; omega

theorem set_get {visited : List Bool} {i k : Nat} (hi : i < visited.length) :
    (visited.set i true)[k]? = if i = k then some true else visited[k]? := by
  rw [List.getElem?_set]
  by_cases h : i = k
  · subst h; simp [hi]
  · simp [h]

theorem search_step {g n es} (h : Rep g n es) (hlen : es.length < valueMod) {visited : List Bool} {i : Nat}
    {stack : List Nat} (inv : SInv n es visited (i :: stack)) :
    ∃ pushed, pushLoop g i (visited.set i true) (List.range g.order) stack = ok (pushed ++ stack) ∧
      SInv n es (visited.set i true) (pushed ++ stack) ∧
      (visited[i]? = some true → visited.set i true = visited ∧ pushed = []) := by
  have hi := inv.lt i (by simp)
  have hiv : i < visited.length := by rw [inv.len]; exact hi
  obtain ⟨p, h1, h2⟩ := pushLoop_eq h hlen hi (visited.set i true) (by simp [inv.len]) (List.range g.order)
    (by rw [h.order]; simp) stack
  rw [h.order] at h2
  simp only [List.mem_range] at h2
  have sg := fun k => set_get (k := k) hiv
  refine ⟨p, h1, ⟨by simp [inv.len], ?_, ?_, ?_, ?_, ?_, ?_⟩, ?_⟩
  · intro j hj
    rw [List.mem_append] at hj
    rcases hj with hj | hj
    · exact ((h2 j).1 hj).1
    · exact inv.lt j (by simp [hj])
  · intro j hj
    rw [List.mem_append] at hj
    rcases hj with hj | hj
    · obtain ⟨_, ⟨e, he, hJ⟩, _⟩ := (h2 j).1 hj
      exact .step (inv.reachS i (by simp)) he hJ
    · exact inv.reachS j (by simp [hj])
  · intro j hj
    rw [sg] at hj
    by_cases hij : i = j
    · subst hij; exact inv.reachS i (by simp)
    · rw [if_neg hij] at hj; exact inv.reachV j hj
  · by_cases hij : i = 0
    · left; rw [sg, if_pos hij]
    · rcases inv.start with h0 | h0
      · left; rw [sg, if_neg hij]; exact h0
      · right; rw [List.mem_cons] at h0
        rcases h0 with h0 | h0
        · exact absurd h0.symm hij
        · simp [h0]
  · intro x j hx hadj hjn
    by_cases hjv : (visited.set i true)[j]? = some true
    · left; exact hjv
    · right
      have hjl : j < (visited.set i true).length := by simp [inv.len, hjn]
      have hjf : (visited.set i true)[j]? = some false := by
        rw [List.getElem?_eq_getElem hjl] at hjv ⊢
        cases hb : (visited.set i true)[j]
        · rfl
        · rw [hb] at hjv; simp at hjv
      by_cases hix : i = x
      · subst hix
        rw [List.mem_append]; left; exact (h2 j).2 ⟨hjn, hadj, hjf⟩
      · rw [sg, if_neg hix] at hx
        have hij : i ≠ j := by rintro rfl; rw [sg, if_pos rfl] at hjf; simp at hjf
        rcases inv.closed x j hx hadj hjn with hh | hh
        · rw [sg, if_neg hij, hh] at hjf; simp at hjf
        · rw [List.mem_cons] at hh
          rcases hh with hh | hh
          · exact absurd hh.symm hij
          · simp [hh]
  · intro pre x post hst hx j hadj hjf
    have hij : i ≠ j := by rintro rfl; rw [sg, if_pos rfl] at hjf; simp at hjf
    have hjf' : visited[j]? = some false := by rw [sg, if_neg hij] at hjf; exact hjf
    have hjn : j < n := by
      by_contra hh
      rw [List.getElem?_eq_none (by rw [inv.len]; omega)] at hjf'; simp at hjf'
    -- either `x` lies in the pushed part (impossible: pushed vertices are unvisited) or in the old stack
    rcases List.append_eq_append_iff.1 hst with ⟨as, ha1, ha2⟩ | ⟨cs, hc1, hc2⟩
    · -- pre = p ++ as, stack = as ++ x :: post
      by_cases hix : i = x
      · subst hix
        rw [ha1, List.mem_append]; left; exact (h2 j).2 ⟨hjn, hadj, hjf⟩
      · rw [sg, if_neg hix] at hx
        have := inv.above (i :: as) x post (by rw [ha2]; rfl) hx j hadj hjf'
        rw [List.mem_cons] at this
        rcases this with this | this
        · exact absurd this.symm hij
        · rw [ha1]; simp [this]
    · -- p = pre ++ cs, x :: post = cs ++ stack
      cases cs with
      | nil =>
        simp only [List.nil_append] at hc2
        simp only [List.append_nil] at hc1
        by_cases hix : i = x
        · subst hix
          rw [← hc1]; exact (h2 j).2 ⟨hjn, hadj, hjf⟩
        · rw [sg, if_neg hix] at hx
          have := inv.above [i] x post (by rw [← hc2]; rfl) hx j hadj hjf'
          rw [List.mem_singleton] at this
          exact absurd this.symm hij
      | cons c cs =>
        rw [List.cons_append, List.cons.injEq] at hc2
        have hxp : x ∈ p := by rw [hc1, hc2.1]; simp
        have := ((h2 x).1 hxp).2.2
        rw [this] at hx; simp at hx
  · intro hiv'
    have hset : visited.set i true = visited := by
      apply List.ext_getElem?
      intro k
      rw [sg]
      by_cases hik : i = k
      · subst hik; rw [if_pos rfl, hiv']
      · rw [if_neg hik]
    refine ⟨hset, ?_⟩
    rw [List.eq_nil_iff_forall_not_mem]
    intro j hj
    obtain ⟨_, hadj, hjf⟩ := (h2 j).1 hj
    rw [hset] at hjf
    have := inv.above [] i stack rfl hiv' j hadj hjf
    simp at this

theorem search_terminates {g n es} (h : Rep g n es) (hlen : es.length < valueMod) :
    ∀ (u : Nat) (s : Nat) (visited : List Bool) (stack : List Nat), unvisited visited ≤ u → stack.length ≤ s →
      SInv n es visited stack →
      ∃ fuel final, SInv n es final [] ∧ ∀ f, fuel ≤ f → searchLoop g f visited stack = some (ok final) := by
  intro u
  induction u with
  | zero =>
    intro s
    induction s with
    | zero =>
      intro visited stack _ hs inv
      have : stack = [] := List.length_eq_zero_iff.1 (by omega)
      subst this
      exact ⟨0, visited, inv, fun f _ => by cases f <;> rfl⟩
    | succ s ihs =>
      intro visited stack hu hs inv
      cases stack with
      | nil => exact ⟨0, visited, inv, fun f _ => by cases f <;> rfl⟩
      | cons i stack =>
        have hi := inv.lt i (by simp)
        have hil : i < visited.length := by rw [inv.len]; exact hi
        obtain ⟨p, h1, h2, h3⟩ := search_step h hlen inv
        have hvis : visited[i]? = some true := by
          rw [List.getElem?_eq_getElem hil]
          cases hb : visited[i]
          · exfalso
            have := unvisited_set (visited := visited) (i := i) (by rw [List.getElem?_eq_getElem hil, hb])
            omega
          · rfl
        obtain ⟨hset, hp⟩ := h3 hvis
        subst hp
        obtain ⟨fuel, final, hf1, hf2⟩ := ihs (visited.set i true) ([] ++ stack) (by rw [hset]; exact hu) (by simpa using hs) h2
        refine ⟨fuel + 1, final, hf1, ?_⟩
        intro f hf
        obtain ⟨f, rfl⟩ : ∃ f', f = f' + 1 := ⟨f - 1, by omega⟩
        rw [searchLoop, if_pos hil]
        simp only [h1]
        exact hf2 f (by omega)
  | succ u ihu =>
    intro s
    induction s with
    | zero =>
      intro visited stack _ hs inv
      have : stack = [] := List.length_eq_zero_iff.1 (by omega)
      subst this
      exact ⟨0, visited, inv, fun f _ => by cases f <;> rfl⟩
    | succ s ihs =>
      intro visited stack hu hs inv
      cases stack with
      | nil => exact ⟨0, visited, inv, fun f _ => by cases f <;> rfl⟩
      | cons i stack =>
        have hi := inv.lt i (by simp)
        have hil : i < visited.length := by rw [inv.len]; exact hi
        obtain ⟨p, h1, h2, h3⟩ := search_step h hlen inv
        have key : ∃ fuel final, SInv n es final [] ∧ ∀ f, fuel ≤ f →
            searchLoop g f (visited.set i true) (p ++ stack) = some (ok final) := by
          cases hb : visited[i]
          · have := unvisited_set (visited := visited) (i := i) (by rw [List.getElem?_eq_getElem hil, hb])
            exact ihu (p ++ stack).length _ _ (by omega) le_rfl h2
          · obtain ⟨hset, hp⟩ := h3 (by rw [List.getElem?_eq_getElem hil, hb])
            subst hp
            exact ihs _ _ (by rw [hset]; exact hu) (by simpa using hs) h2
        obtain ⟨fuel, final, hf1, hf2⟩ := key
        refine ⟨fuel + 1, final, hf1, ?_⟩
        intro f hf
        obtain ⟨f, rfl⟩ : ∃ f', f = f' + 1 := ⟨f - 1, by omega⟩
        rw [searchLoop, if_pos hil]
        simp only [h1]
        exact hf2 f (by omega)

theorem Reach.trans {es : List (Nat × Nat)} {i j k : Nat} (h1 : Reach es i j) (h2 : Reach es j k) : Reach es i k := by
  induction h2 with
  | refl => exact h1
  | step _ he hJ ih => exact .step ih he hJ

theorem Reach.symm {es : List (Nat × Nat)} {i j : Nat} (h : Reach es i j) : Reach es j i := by
  induction h with
  | refl => exact .refl
  | step _ he hJ ih => exact Reach.trans (.step .refl he (joins_comm.1 hJ)) ih

theorem Reach.lt {n : Nat} {es : List (Nat × Nat)} (hes : ∀ e ∈ es, e.1 < n ∧ e.2 < n) {i j : Nat} (hi : i < n)
    (h : Reach es i j) : j < n := by
  cases h with
  | refl => exact hi
  | @step _ _ e _ he hJ =>
    have := hes e he
    rcases e with ⟨x, y⟩
    simp only [Joins, Prod.mk.injEq] at hJ
    simp at this
    omega

theorem isConnected_eq {g n es} (h : Rep g n es) (hes : ∀ e ∈ es, e.1 < n ∧ e.2 < n) (hlen : es.length < valueMod)
    (hn : 0 < n) : ∃ fuel b, (∀ f, fuel ≤ f → DenseGraph.isConnected g f = some (ok b)) ∧
      (b = true ↔ Spec.Graph.Connected n es) := by
  have inv0 : SInv n es (List.replicate n false) [0] := by
    refine ⟨by simp, by simpa using hn, by simp; exact .refl, ?_, by simp, ?_, ?_⟩
    · intro i hi; rw [List.getElem?_replicate] at hi; split at hi <;> simp at hi
    · intro i j hi; rw [List.getElem?_replicate] at hi; split at hi <;> simp at hi
    · intro pre x post _ hi; rw [List.getElem?_replicate] at hi; split at hi <;> simp at hi
  obtain ⟨fuel, final, hf1, hf2⟩ := search_terminates h hlen _ _ _ _ le_rfl le_rfl inv0
  refine ⟨fuel, final.all id, ?_, ?_⟩
  · intro f hf
    unfold DenseGraph.isConnected
    rw [h.order, hf2 f hf]
  · have hreach : ∀ j, Reach es 0 j → final[j]? = some true := by
      intro j hj
      induction hj with
      | refl => rcases hf1.start with hh | hh
                · exact hh
                · simp at hh
      | @step j k e hr he hJ ih =>
        have hk : k < n := Reach.lt hes hn (.step hr he hJ)
        rcases hf1.closed j k ih ⟨e, he, hJ⟩ hk with hh | hh
        · exact hh
        · simp at hh
    rw [List.all_eq_true]
    constructor
    · intro hall i j hi hj
      have hv : ∀ k, k < n → Reach es 0 k := by
        intro k hk
        have hkl : k < final.length := by rw [hf1.len]; exact hk
        apply hf1.reachV
        rw [List.getElem?_eq_getElem hkl]
        have := hall final[k] (List.getElem_mem hkl)
        simpa using this
      exact Reach.trans (Reach.symm (hv i hi)) (hv j hj)
    · intro hc b hb
      rw [List.mem_iff_getElem] at hb
      obtain ⟨k, hk, rfl⟩ := hb
      have := hreach k (hc 0 k hn (by rw [← hf1.len]; exact hk))
      rw [List.getElem?_eq_getElem hk] at this
      simpa using this

end Kigumi.DenseGraph
