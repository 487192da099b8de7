import Verif.Proofs.DenseGraph

/-! # C60: the packed graph answers as the mathematical multigraph -/
namespace Kigumi.Props
open Kigumi Outcome DenseGraph Spec.Graph

/-- Every sequence of added edges with ends below the order is stored faithfully: the value read for a pair is the
number of added edges joining the pair (as an `unsigned`), so no two pairs share a cell and no access is out of
bounds; ends outside the order are rejected by an exception, never by undefined behaviour. -/
theorem C60_storage (n : Nat) (es : List (Nat × Nat)) (hes : ∀ e ∈ es, e.1 < n ∧ e.2 < n) :
    ∃ g, addEdges (create n) es = ok g ∧
      (∀ i j, i < n → j < n → DenseGraph.get g i j = ok (mult es i j % 4294967296)) ∧
      (∀ i j, ¬ (i < n ∧ j < n) → ∃ e, DenseGraph.get g i j = exn e ∧ addEdge g i j = exn e) := by
  obtain ⟨g, h1, h2⟩ := Rep.addEdges es hes (Rep.create n)
  refine ⟨g, h1, fun i j hi hj => by simpa [valueMod] using h2.get hi hj, ?_⟩
  intro i j hij
  unfold DenseGraph.get addEdge cell
  rw [h2.order]
  by_cases hi : i ≥ n
  · exact ⟨_, by rw [if_pos hi]; rfl, by rw [if_pos hi]; rfl⟩
  · have hj : j ≥ n := by omega
    exact ⟨_, by rw [if_neg hi, if_pos hj]; rfl, by rw [if_neg hi, if_pos hj]; rfl⟩

/-- Degree, adjacency, simplicity and maximum degree are those of the multigraph. -/
theorem C60_queries (n : Nat) (es : List (Nat × Nat)) (hes : ∀ e ∈ es, e.1 < n ∧ e.2 < n)
    (hlen : es.length < 4294967296) :
    ∃ g, addEdges (create n) es = ok g ∧
      (∀ i, i < n → degree g i = ok (deg es i)) ∧
      (∀ i j, i < n → j < n → ∃ b, hasEdge g i j = ok b ∧ (b = true ↔ ∃ e ∈ es, Joins e i j)) ∧
      (∃ b, isSimple g = ok b ∧ (b = true ↔ Simple es)) ∧
      (∃ m, maxDegree g = ok m ∧ (∀ i, i < n → deg es i ≤ m) ∧ (m = 0 ∨ ∃ i, i < n ∧ m = deg es i)) := by
  obtain ⟨g, h1, h2⟩ := Rep.addEdges es hes (Rep.create n)
  rw [List.nil_append] at h2
  have hlen' : es.length < valueMod := hlen
  refine ⟨g, h1, fun i hi => h2.degree hes hlen' hi, ?_, ?_, ?_⟩
  · intro i j hi hj
    exact ⟨_, h2.hasEdge hlen' hi hj, by simp⟩
  · refine ⟨_, by unfold isSimple; rw [h2.order]; exact simpleLoop_eq h2 hlen' (List.range n) (by simp), ?_⟩
    rw [decide_eq_true_eq]
    constructor
    · intro h
      have hloop : ∀ e ∈ es, e.1 ≠ e.2 := by
        intro e he heq
        have h0 := (h e.1 (by simpa using (hes e he).1)).1
        refine mult_pos.2 ⟨e, he, ?_⟩ h0
        left; rcases e with ⟨x, y⟩; simp at heq ⊢; exact heq.symm
      refine ⟨hloop, ?_⟩
      have key : ∀ i j, i ≤ j → mult es i j ≤ 1 := by
        intro i j hij
        by_cases h0 : mult es i j = 0
        · omega
        · obtain ⟨e, he, hJ⟩ := mult_pos.1 h0
          have hb := hes e he
          have hne := hloop e he
          rcases e with ⟨x, y⟩
          simp only [Joins, Prod.mk.injEq] at hJ
          simp only at hb hne
          exact (h i (by rw [List.mem_range]; omega)).2 j (by omega) (by omega)
      intro i j
      rcases Nat.le_total i j with hij | hij
      · exact key i j hij
      · rw [mult_comm]; exact key j i hij
    · rintro ⟨hl, hm⟩ i hi
      refine ⟨?_, fun j _ _ => hm i j⟩
      by_contra h0
      obtain ⟨e, he, hJ⟩ := mult_pos.1 h0
      have := hl e he
      rcases e with ⟨x, y⟩
      simp only [Joins, Prod.mk.injEq] at hJ
      simp at this; omega
  · obtain ⟨m, a, b, c, d⟩ := maxDegreeLoop_eq h2 hes hlen' (List.range n) (by simp) 0
    refine ⟨m, by unfold maxDegree; rw [h2.order]; exact a, fun i hi => c i (by simpa using hi), ?_⟩
    rcases d with d | ⟨i, hi, d⟩
    · exact Or.inl d
    · exact Or.inr ⟨i, by simpa using hi, d⟩

/-- The connectivity search of every non-empty graph ends, never throws, and answers whether any two vertices are
joined by a path. -/
theorem C60_connectivity (n : Nat) (hn : 0 < n) (es : List (Nat × Nat)) (hes : ∀ e ∈ es, e.1 < n ∧ e.2 < n)
    (hlen : es.length < 4294967296) :
    ∃ g, addEdges (create n) es = ok g ∧ ∃ fuel b, (∀ f, fuel ≤ f → isConnected g f = some (ok b)) ∧
      (b = true ↔ Spec.Graph.Connected n es) := by
  obtain ⟨g, h1, h2⟩ := Rep.addEdges es hes (Rep.create n)
  rw [List.nil_append] at h2
  exact ⟨g, h1, isConnected_eq h2 hes hlen hn⟩

/-- The search on the graph without vertices throws: the caller must not ask (the defect search never does, see C57). -/
theorem C60_connectivity_empty_throws (fuel : Nat) : isConnected (create 0) (fuel + 1) = some (exn "out_of_range") := by
  simp [isConnected, searchLoop, create]

/-- A path with a doubled edge and a loop: hypotheses are met. -/
example : ∃ g, addEdges (create 4) [(0, 1), (1, 0), (2, 1), (3, 3)] = ok g ∧ ∃ fuel b,
    (∀ f, fuel ≤ f → isConnected g f = some (ok b)) ∧
    (b = true ↔ Spec.Graph.Connected 4 [(0, 1), (1, 0), (2, 1), (3, 3)]) :=
  C60_connectivity 4 (by decide) _ (by decide) (by decide)

example : (addEdges (create 4) [(0, 1), (1, 0), (2, 1), (3, 3)]).bind (fun g => maxDegree g) = ok 3 := by decide
example : ((addEdges (create 3) [(0, 1), (2, 1)]).bind fun g => match isConnected g 10 with
    | some r => r | none => ub "fuel") = ok true := by decide

end Kigumi.Props
