import Verif.Proofs.AABB
import Verif.Spec.Boxes

/-! # C20, C21: the spatial index -/
namespace Kigumi.Props
open Kigumi AABB Outcome
variable {L B Q : Type}

theorem slice_initial (nodes : Nat → Node B) (ls : List L) (dflt : L) : slice (initial nodes ls dflt) 0 ls.length = ls := by
  apply List.ext_getElem?
  intro i
  unfold slice
  rw [List.getElem?_map]
  by_cases hi : i < ls.length
  · rw [List.getElem?_range' hi]
    simp [initial, hi]
  · rw [List.getElem?_eq_none (by simp; omega), List.getElem?_eq_none (by omega)]; rfl

/-- **Spatial queries are exact.** For every list of leaves, every outcome of the selection algorithm (`arr`), every concurrency depth and every
schedule of the builder threads, a query outputs positions of the tree's leaves, each once, and the leaves at these positions are exactly
the given leaves whose box meets the query (with multiplicity). -/
theorem C20_query_exact (ops : Boxes L B Q)
    (hleft : ∀ b c q, ops.meets b q = true → ops.meets (ops.join b c) q = true)
    (hright : ∀ b c q, ops.meets c q = true → ops.meets (ops.join b c) q = true)
    (arr : Nat → List L → List L) (harr : ∀ k l, (arr k l).Perm l) (limit : Nat) (nodes : Nat → Node B) (ls : List L) (dflt : L)
    {mem : Mem L B} (h : Prog.Exec (construct ops arr limit ls.length) (initial nodes ls dflt) .skip mem) (q : Q) :
    ∃ ps, query ops mem ls.length q = ok ps ∧ ps.Nodup ∧ (∀ p ∈ ps, p < ls.length) ∧
      (ps.map mem.leaves).Perm (ls.filter (fun l => ops.meets (ops.ofLeaf l) q)) := by
  have hrun : (construct ops arr limit ls.length).run (initial nodes ls dflt) = mem :=
    (construct_sep ops arr limit ls.length).exec h
  -- positions output, for any memory whose leaves are a permutation of the given ones
  have fin : (slice mem 0 ls.length).Perm ls →
      query ops mem ls.length q = ok ((List.range' 0 ls.length).filter (fun i => ops.meets (ops.ofLeaf (mem.leaves i)) q)) →
      ∃ ps, query ops mem ls.length q = ok ps ∧ ps.Nodup ∧ (∀ p ∈ ps, p < ls.length) ∧
        (ps.map mem.leaves).Perm (ls.filter (fun l => ops.meets (ops.ofLeaf l) q)) := by
    intro hp hq
    refine ⟨_, hq, List.Nodup.filter _ List.nodup_range', ?_, ?_⟩
    · intro p hp
      have := (List.mem_filter.1 hp).1
      rw [List.mem_range'_1] at this; omega
    · have : (List.filter (fun i => ops.meets (ops.ofLeaf (mem.leaves i)) q) (List.range' 0 ls.length)).map mem.leaves
          = (slice mem 0 ls.length).filter (fun l => ops.meets (ops.ofLeaf l) q) := by
        unfold slice; rw [List.filter_map]; rfl
      rw [this]
      exact hp.filter _
  by_cases hn : ls.length ≤ 1
  · have hmem : mem = initial nodes ls dflt := by rw [← hrun]; unfold construct; rw [if_pos hn]; rfl
    refine fin (by rw [hmem, slice_initial]) ?_
    rcases Nat.lt_or_ge 0 ls.length with h1 | h1
    · have h1 : ls.length = 1 := by omega
      rw [h1]
      simp only [query, emit_eq]; rfl
    · have h1 : ls.length = 0 := by omega
      rw [h1]; rfl
  · have hc : construct ops arr limit ls.length = build ops arr limit ls.length 0 0 ls.length 0 := by
      unfold construct; rw [if_neg hn]
    rw [hc] at hrun
    obtain ⟨t1, t2⟩ := build_tree ⟨hleft, hright⟩ harr limit ls.length 0 0 ls.length 0 (initial nodes ls dflt) (by omega) (Nat.le_refl _)
    rw [hrun] at t1 t2
    rw [slice_initial] at t2
    refine fin t2 ?_
    have : query ops mem ls.length q = traverse ops mem q ls.length ls.length 0 := by
      unfold query; split
      · omega
      · omega
      · rfl
    rw [this]
    exact traverse_eq t1 q _ (Nat.le_refl _)

/-- Geometric boxes: `none` is the empty box `Bbox_3{}`; joining takes componentwise minimum and maximum. -/
def geoBoxes (meets : Option Spec.Box → (Spec.P3 → Prop) → Bool) : Boxes Spec.Box (Option Spec.Box) (Spec.P3 → Prop) where
  empty := none
  join b c := match b, c with
    | none, c => c
    | b, none => b
    | some b, some c => some (b.join c)
  ofLeaf := some
  meets := meets

/-- The same for geometric boxes and any set of points as query (boxes, rays, segments): the leaves found are exactly those whose
closed box contains a point of the query. -/
theorem C20_geometric (arr : Nat → List Spec.Box → List Spec.Box) (harr : ∀ k l, (arr k l).Perm l) (limit : Nat)
    (meets : Option Spec.Box → (Spec.P3 → Prop) → Bool)
    (hmeets : ∀ b q, meets b q = true ↔ ∃ c, b = some c ∧ ∃ p, c.Mem p ∧ q p)
    (nodes : Nat → Node (Option Spec.Box)) (ls : List Spec.Box) (dflt : Spec.Box) {mem : Mem Spec.Box (Option Spec.Box)}
    (h : Prog.Exec (construct (geoBoxes meets) arr limit ls.length) (initial nodes ls dflt) .skip mem) (q : Spec.P3 → Prop) :
    ∃ ps, query (geoBoxes meets) mem ls.length q = ok ps ∧ ps.Nodup ∧
      (∀ b : Spec.Box, (∃ p ∈ ps, mem.leaves p = b) ↔ b ∈ ls ∧ ∃ x, b.Mem x ∧ q x) := by
  have hl : ∀ b c q, (geoBoxes meets).meets b q = true → (geoBoxes meets).meets ((geoBoxes meets).join b c) q = true := by
    intro b c q hb
    simp only [geoBoxes, hmeets] at hb ⊢
    obtain ⟨b', rfl, p, hp, hq⟩ := hb
    cases c with
    | none => exact ⟨b', rfl, p, hp, hq⟩
    | some c => exact ⟨_, rfl, p, Spec.Box.mem_join_left hp, hq⟩
  have hr : ∀ b c q, (geoBoxes meets).meets c q = true → (geoBoxes meets).meets ((geoBoxes meets).join b c) q = true := by
    intro b c q hb
    simp only [geoBoxes, hmeets] at hb ⊢
    obtain ⟨c', rfl, p, hp, hq⟩ := hb
    cases b with
    | none => exact ⟨c', rfl, p, hp, hq⟩
    | some b => exact ⟨_, rfl, p, Spec.Box.mem_join_right hp, hq⟩
  obtain ⟨ps, h1, h2, -, h4⟩ := C20_query_exact (geoBoxes meets) hl hr arr harr limit nodes ls dflt h q
  refine ⟨ps, h1, h2, ?_⟩
  intro b
  rw [← List.mem_map, h4.mem_iff, List.mem_filter]
  simp [geoBoxes, hmeets]

/-- **Concurrent construction is deterministic.** Every execution, whatever the concurrency depth and the schedule, can be completed and every complete one ends
with the memory of the purely sequential construction. -/
theorem C21_deterministic (ops : Boxes L B Q) (arr : Nat → List L → List L) (limit n : Nat) (mem0 : Mem L B) :
    (∀ {p mem}, Prog.Exec (construct ops arr limit n) mem0 p mem → ∃ mem', Prog.Exec p mem .skip mem') ∧
    (∀ {mem}, Prog.Exec (construct ops arr limit n) mem0 .skip mem → Prog.Exec (construct ops arr 0 n) mem0 .skip mem) := by
  refine ⟨fun {p mem} _ => Prog.exec_complete p mem, ?_⟩
  intro mem h
  have h1 : (construct ops arr limit n).run mem0 = mem := (construct_sep ops arr limit n).exec h
  have h2 : (construct ops arr 0 n).run mem0 = mem := by
    rw [← h1]
    unfold construct
    split
    · rfl
    · exact build_limit ops arr 0 limit n 0 0 n 0 0 mem0
  obtain ⟨mem', h3⟩ := Prog.exec_complete (construct ops arr 0 n) mem0
  have h4 : (construct ops arr 0 n).run mem0 = mem' := (construct_sep ops arr 0 n).exec h3
  rw [← h2, h4]
  exact h3

/-- **Concurrent construction is safe.** In every reachable state: an action of any thread reads and writes only the `n - 1` allocated nodes and the `n` leaves,
and two actions of different threads that may be performed next touch (read or write) disjoint sets of nodes and leaves: no data race. -/
theorem C21_no_races (ops : Boxes L B Q) (arr : Nat → List L → List L) (limit n : Nat) {mem0 mem : Mem L B} {p : Prog (Mem L B)}
    (h : Prog.Exec (construct ops arr limit n) mem0 p mem) :
    (∀ {a p'}, Prog.Step p a p' → ∃ N F : Nat → Prop, (∀ i, N i → i < n - 1) ∧ (∀ i, F i → i < n) ∧ Touches N F a) ∧
    (∀ {a b}, Prog.Conc p a b → ∃ N F N' F' : Nat → Prop, (∀ i, N i → ¬ N' i) ∧ (∀ i, F i → ¬ F' i) ∧ Touches N F a ∧ Touches N' F' b) := by
  have hs := (construct_sep (L := L) (B := B) ops arr limit n).exec_sep h
  refine ⟨?_, ?_⟩
  · intro a p' st
    refine ⟨fun i => Foot 0 0 n (.node i), fun i => Foot 0 0 n (.leaf i), ?_, ?_, Touches.of_local (hs.step st).2.1⟩
    · intro i hi; simp only [Foot] at hi; omega
    · intro i hi; simp only [Foot] at hi; omega
  · intro a b hc
    obtain ⟨G, H, hd, -, -, ha, hb⟩ := hs.conc hc
    exact ⟨_, _, _, _, fun i hi hi' => hd _ hi hi', fun i hi hi' => hd _ hi hi', .of_local ha, .of_local hb⟩

/-- **The tree has exactly the allocated nodes.** Following the stored pointers from the root of a tree over `n ≥ 2` leaves visits every allocated
node exactly once (in memory order) and every leaf exactly once (in memory order). -/
theorem C21_layout (ops : Boxes L B Q)
    (hleft : ∀ b c q, ops.meets b q = true → ops.meets (ops.join b c) q = true)
    (hright : ∀ b c q, ops.meets c q = true → ops.meets (ops.join b c) q = true)
    (arr : Nat → List L → List L) (harr : ∀ k l, (arr k l).Perm l) (limit n : Nat) (hn : 2 ≤ n) (mem0 : Mem L B)
    {mem : Mem L B} (h : Prog.Exec (construct ops arr limit n) mem0 .skip mem) :
    PreorderOf mem (.node 0) (List.range (n - 1)) (List.range n) := by
  have hrun : (construct ops arr limit n).run mem0 = mem := (construct_sep ops arr limit n).exec h
  have hc : construct ops arr limit n = build ops arr limit n 0 0 n 0 := by
    unfold construct; rw [if_neg (by omega)]
  rw [hc] at hrun
  obtain ⟨t1, t2⟩ := build_tree ⟨hleft, hright⟩ harr limit n 0 0 n 0 mem0 hn (Nat.le_refl _)
  rw [hrun] at t1
  have := t1.preorder
  rwa [← List.range_eq_range', ← List.range_eq_range'] at this

/-- A concrete tree with five leaves on the number line, built with two concurrent levels. -/
def demoOps : Boxes (Nat × Nat) (Option (Nat × Nat)) (Nat × Nat) where
  empty := none
  join b c := match b, c with
    | none, c => c
    | b, none => b
    | some b, some c => some (min b.1 c.1, max b.2 c.2)
  ofLeaf := some
  meets b q := match b with
    | none => false
    | some b => decide (b.1 ≤ q.2 ∧ q.1 ≤ b.2)

def demoLeaves : List (Nat × Nat) := [(0, 2), (1, 3), (5, 6), (5, 6), (7, 9)]

def demoMem : Mem (Nat × Nat) (Option (Nat × Nat)) :=
  (construct demoOps (fun _ l => l.reverse) 2 5).run (initial (fun _ => ⟨none, .null, .null⟩) demoLeaves (0, 0))

-- the query (3, 5) meets three leaves, two of which are equal; reversal is a legal permutation
example : query demoOps demoMem 5 (3, 5) = ok [1, 3, 4] ∧ [1, 3, 4].map demoMem.leaves = [(5, 6), (1, 3), (5, 6)] ∧
    (∀ b c q, demoOps.meets b q = true → demoOps.meets (demoOps.join b c) q = true) := by
  refine ⟨by decide +kernel, by decide +kernel, ?_⟩
  intro b c q h
  cases b with
  | none => simp [demoOps] at h
  | some b =>
    cases c with
    | none => exact h
    | some c =>
      simp only [demoOps, decide_eq_true_eq] at h ⊢
      omega
-- the hypotheses of the theorems are met by an execution
example : ∃ mem, Prog.Exec (construct demoOps (fun _ l => l.reverse) 2 5) (initial (fun _ => ⟨none, .null, .null⟩) demoLeaves (0, 0)) .skip mem :=
  Prog.exec_complete _ _
-- the point-set test of `C20_geometric` exists
open Classical in
example : ∃ meets : Option Spec.Box → (Spec.P3 → Prop) → Bool, ∀ b q, meets b q = true ↔ ∃ c, b = some c ∧ ∃ p, c.Mem p ∧ q p :=
  ⟨fun b q => decide (∃ c, b = some c ∧ ∃ p, c.Mem p ∧ q p), fun _ _ => decide_eq_true_iff⟩

-- a pointer to a node is not taken for a leaf, nor the other way round
example : asLeaf (.node 3) = ub "not a leaf" ∧ asNode (.leaf 3) = ub "not a node" ∧ asLeaf (.leaf 3) = ok 3 := ⟨rfl, rfl, rfl⟩

end Kigumi.Props
