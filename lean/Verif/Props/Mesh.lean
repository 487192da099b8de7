import Verif.Proofs.Mesh
import Verif.Proofs.ParallelSort
import Verif.Props.ParallelSort
import Verif.Spec.Mesh

/-! # C23, C24: faces around an edge, faces around a face -/
namespace Kigumi.Mesh
open Kigumi Outcome

theorem sorted_fst {l : List (Nat × Nat)} (h : l.Pairwise (fun x y => ¬ pairLt y x)) : l.Pairwise (fun x y => x.1 ≤ y.1) :=
  h.imp (by intro a b hab; unfold pairLt at hab; omega)

theorem sorted_range {l : List (Nat × Nat)} (h : l.Pairwise (fun x y => ¬ pairLt y x)) (v : Nat) :
    ((l.filter (fun p => decide (p.1 = v))).map (·.2)).Pairwise (· ≤ ·) := by
  rw [List.pairwise_map, List.pairwise_filter]
  refine h.imp ?_
  intro a b hab ha hb
  simp at ha hb
  unfold pairLt at hab
  omega

theorem mem_pairs {fs : List (Tri Nat)} {v i : Nat} : (v, i) ∈ pairs 0 fs ↔ Spec.Incident fs v i := by
  rw [← List.count_pos_iff, count_pairs]
  simp only [Nat.zero_le, if_true, Nat.sub_zero]
  unfold Spec.Incident
  cases fs[i]? with
  | none => simp
  | some f => simp [Tri.toList]

theorem mem_range {fs : List (Tri Nat)} {sorted : List (Nat × Nat)} (hp : sorted.Perm (pairs 0 fs)) (v i : Nat) :
    0 < ((sorted.filter (fun p => decide (p.1 = v))).map (·.2)).count i ↔ Spec.Incident fs v i := by
  rw [count_range hp]
  unfold Spec.Incident
  cases fs[i]? with
  | none => simp
  | some f => simp [Tri.toList]

theorem aroundEdge_ok {fs : List (Tri Nat)} {m : Mesh} (h : Finalized fs m) {v w : Nat}
    (hv : ∃ u i, v ≤ u ∧ Spec.Incident fs u i) (hw : ∃ u i, w ≤ u ∧ Spec.Incident fs u i) :
    ∃ l, aroundEdge m v w = ok l ∧ l.Pairwise (· ≤ ·) ∧ (∀ i, i ∈ l ↔ Spec.Incident fs v i ∧ Spec.Incident fs w i) ∧ (v ≠ w → l.Pairwise (· < ·)) := by
  obtain ⟨sorted, hp, hs, rfl⟩ := h
  have hfst := sorted_fst hs
  have ex : ∀ {v}, (∃ u i, v ≤ u ∧ Spec.Incident fs u i) → ∃ p ∈ sorted, v ≤ p.1 := by
    rintro v ⟨u, i, hu, hi⟩
    exact ⟨(u, i), hp.mem_iff.2 (mem_pairs.2 hi), hu⟩
  unfold aroundEdge
  rw [vertexRange_eq hfst (ex hv), ok_bind, vertexRange_eq hfst (ex hw), ok_bind]
  obtain ⟨c1, c2⟩ := collect_spec _ _ _ (Nat.le_refl _) (sorted_range hs v) (sorted_range hs w)
  have hle := (sorted_range hs v).sublist c1
  refine ⟨_, rfl, hle, ?_, ?_⟩
  · intro i
    rw [← List.count_pos_iff, c2, ← mem_range hp v i, ← mem_range hp w i]
    omega
  · intro hvw
    have hnd : (collect ((sorted.filter (fun p => decide (p.1 = v))).map (·.2)) ((sorted.filter (fun p => decide (p.1 = w))).map (·.2))).Nodup := by
      rw [List.nodup_iff_count_le_one]
      intro i
      rw [c2, count_range hp, count_range hp]
      cases fs[i]? with
      | none => simp
      | some f =>
        simp only [Tri.toList, List.count_cons, List.count_nil, beq_iff_eq]
        by_cases h1 : f.a = v <;> by_cases h2 : f.b = v <;> by_cases h3 : f.c = v <;> simp_all <;> split <;> simp_all
    exact (hle.and hnd).imp (by intro a b hab; have h1 := hab.1; have h2 : a ≠ b := hab.2; omega)

theorem makeEdge_eq (v w : Nat) : makeEdge v w = (min v w, max v w) := by
  unfold makeEdge; split <;> simp <;> omega

end Kigumi.Mesh

namespace Kigumi.Props
open Kigumi Mesh Outcome

/-- **Faces around an edge.** In a finalised mesh, for two different vertices (not beyond the last used vertex), the enumeration
succeeds and yields, in strictly increasing order, exactly the faces having both as corners. -/
theorem C23_faces_around_edge {fs : List (Tri Nat)} {m : Mesh} (h : Finalized fs m) {v w : Nat} (hvw : v ≠ w)
    (hv : ∃ u i, v ≤ u ∧ Spec.Incident fs u i) (hw : ∃ u i, w ≤ u ∧ Spec.Incident fs u i) :
    ∃ l, aroundEdge m v w = ok l ∧ l.Pairwise (· < ·) ∧ ∀ i, i ∈ l ↔ Spec.Incident fs v i ∧ Spec.Incident fs w i := by
  obtain ⟨l, h1, -, h3, h4⟩ := aroundEdge_ok h hv hw
  exact ⟨l, h1, h4 hvw, h3⟩

/-- For a vertex beyond all used vertices the call throws; it never reads out of bounds. -/
theorem C23_unused_vertex_throws {fs : List (Tri Nat)} {m : Mesh} (h : Finalized fs m) {v w : Nat}
    (hv : ∀ u i, Spec.Incident fs u i → u < v) : aroundEdge m v w = exn "out_of_range" := by
  obtain ⟨sorted, hp, hs, rfl⟩ := h
  obtain ⟨-, h2, h3⟩ := finalize_indices (fs := fs) (sorted_fst hs)
  have hlt : ∀ p ∈ sorted, p.1 < v := by
    intro p hpm
    exact hv p.1 p.2 (mem_pairs.1 (hp.mem_iff.1 hpm))
  have hnone : (finalize (ofFaces fs) sorted).indices[v + 1]? = none :=
    h3 (v + 1) (by omega) (by intro p hpm; have := hlt p hpm; omega)
  have h1 : at! (finalize (ofFaces fs) sorted).indices (v + 1) = exn "out_of_range" := by unfold at!; rw [hnone]
  unfold aroundEdge vertexRange
  cases hx : at! (finalize (ofFaces fs) sorted).indices v with
  | ok a => rw [ok_bind, h1]; rfl
  | exn e =>
    have : e = "out_of_range" := by
      unfold at! at hx; split at hx
      · cases hx
      · cases hx; rfl
    rw [this]; rfl
  | ub e => unfold at! at hx; split at hx <;> cases hx

/-- The sort inside `finalize` is `parallel_sort`; every outcome it can have (any thread count and schedule, C16) gives a finalised mesh. -/
theorem C23_finalize_by_parallel_sort (fs : List (Tri Nat)) {configured : Nat} (hc : 1 ≤ configured) {r : Option (List (Nat × Nat))}
    (h : ParallelSort.Returns pairLt configured (pairs 0 fs) r) : ∃ sorted, r = some sorted ∧ Finalized fs (finalize (ofFaces fs) sorted) := by
  obtain ⟨ys, h1, h2, h3⟩ := C16_sorts pairLt hc (pairs 0 fs) h
  exact ⟨ys, h1, ys, h2, h3, rfl⟩

/-- **Faces around a face.** For every face of a finalised mesh and every border set the enumeration ends and yields exactly the faces sharing
a non-border side with it; the face itself may be listed, but only once, as the first entry. -/
theorem C24_faces_around_face {fs : List (Tri Nat)} {m : Mesh} (h : Finalized fs m) (border : List (Nat × Nat)) {fi : Nat} (hfi : fi < fs.length) :
    ∃ l, aroundFace m border fi = ok l ∧
      (∀ j ∈ l, Spec.SharesNonBorder fs border fi j) ∧
      (∀ j, j ≠ fi → Spec.SharesNonBorder fs border fi j → j ∈ l) ∧
      fi ∉ l.tail := by
  have hm : m.faces = fs := by obtain ⟨s, -, -, rfl⟩ := h; rfl
  have hf : fs[fi]? = some fs[fi] := List.getElem?_eq_getElem hfi
  generalize fs[fi] = f at hf
  have hinc : ∀ {v}, (v = f.a ∨ v = f.b ∨ v = f.c) → Spec.Incident fs v fi := fun hv => ⟨f, hf, hv⟩
  have ex : ∀ {v}, (v = f.a ∨ v = f.b ∨ v = f.c) → ∃ u i, v ≤ u ∧ Spec.Incident fs u i := fun {v} hv => ⟨v, fi, Nat.le_refl _, hinc hv⟩
  have edge : ∀ {v w}, (v = f.a ∨ v = f.b ∨ v = f.c) → (w = f.a ∨ w = f.b ∨ w = f.c) →
      ∃ l, aroundEdge m (makeEdge v w).1 (makeEdge v w).2 = ok l ∧ ∀ i, i ∈ l ↔ Spec.Incident fs v i ∧ Spec.Incident fs w i := by
    intro v w hv hw
    unfold makeEdge
    split
    · obtain ⟨l, h1, -, h3, -⟩ := aroundEdge_ok h (ex hw) (ex hv)
      exact ⟨l, h1, fun i => by rw [h3 i, and_comm]⟩
    · obtain ⟨l, h1, -, h3, -⟩ := aroundEdge_ok h (ex hv) (ex hw)
      exact ⟨l, h1, h3⟩
  obtain ⟨l1, a1, b1⟩ := edge (v := f.a) (w := f.b) (by simp) (by simp)
  obtain ⟨l2, a2, b2⟩ := edge (v := f.b) (w := f.c) (by simp) (by simp)
  obtain ⟨l3, a3, b3⟩ := edge (v := f.c) (w := f.a) (by simp) (by simp)
  unfold aroundFace
  rw [hm, at!_ok.2 hf, ok_bind]
  simp only [a1, a2, a3, ok_bind]
  refine ⟨_, rfl, ?_⟩
  rw [collect3_eq fi _ _ _ _ (Nat.le_refl _)]
  have hmem : ∀ j, j ∈ (if makeEdge f.a f.b ∈ border then [] else l1) ++ (if makeEdge f.b f.c ∈ border then [] else l2) ++
      (if makeEdge f.c f.a ∈ border then [] else l3) ↔ Spec.SharesNonBorder fs border fi j := by
    intro j
    have one : ∀ (v w : Nat) (l : List Nat), (∀ i, i ∈ l ↔ Spec.Incident fs v i ∧ Spec.Incident fs w i) →
        (j ∈ (if makeEdge v w ∈ border then [] else l) ↔ ¬ Spec.IsBorder border v w ∧ Spec.Incident fs v j ∧ Spec.Incident fs w j) := by
      intro v w l hl
      unfold Spec.IsBorder
      rw [← makeEdge_eq]
      split
      · rename_i hb; simp [hb]
      · rename_i hb; simp [hb, hl]
    rw [List.mem_append, List.mem_append, one _ _ _ b1, one _ _ _ b2, one _ _ _ b3]
    unfold Spec.SharesNonBorder Spec.IsSide
    constructor
    · rintro ((h | h) | h)
      · exact ⟨f, f.a, f.b, hf, by simp, h⟩
      · exact ⟨f, f.b, f.c, hf, by simp, h⟩
      · exact ⟨f, f.c, f.a, hf, by simp, h⟩
    · rintro ⟨f', v, w, hf', hside, hrest⟩
      have : f' = f := by rw [hf] at hf'; exact (Option.some.inj hf').symm
      subst this
      rcases hside with ⟨rfl, rfl⟩ | ⟨rfl, rfl⟩ | ⟨rfl, rfl⟩
      · exact Or.inl (Or.inl hrest)
      · exact Or.inl (Or.inr hrest)
      · exact Or.inr hrest
  generalize hL : (if makeEdge f.a f.b ∈ border then [] else l1) ++ (if makeEdge f.b f.c ∈ border then [] else l2) ++
      (if makeEdge f.c f.a ∈ border then [] else l3) = L at hmem
  cases L with
  | nil =>
    refine ⟨by simp, ?_, by simp⟩
    intro j _ hj; simpa using (hmem j).2 hj
  | cons x L =>
    refine ⟨?_, ?_, by simp⟩
    · intro j hj
      apply (hmem j).1
      rcases List.mem_cons.1 hj with rfl | hj
      · simp
      · exact List.mem_cons_of_mem _ (List.mem_filter.1 hj).1
    · intro j hjf hj
      rcases List.mem_cons.1 ((hmem j).2 hj) with rfl | hj
      · simp
      · exact List.mem_cons_of_mem _ (List.mem_filter.2 ⟨hj, by simpa using hjf⟩)

/-- Example 1 of the header comment (three faces around vertex 0), with an extra unused vertex 5 and a face on vertex 6. -/
def demoFaces : List (Tri Nat) := [⟨0, 1, 2⟩, ⟨0, 2, 3⟩, ⟨0, 3, 4⟩, ⟨3, 4, 6⟩]
def demoSorted : List (Nat × Nat) := [(0, 0), (0, 1), (0, 2), (1, 0), (2, 0), (2, 1), (3, 1), (3, 2), (3, 3), (4, 2), (4, 3), (6, 3)]

example : Finalized demoFaces (finalize (ofFaces demoFaces) demoSorted) ∧
    aroundEdge (finalize (ofFaces demoFaces) demoSorted) 3 4 = ok [2, 3] ∧
    aroundEdge (finalize (ofFaces demoFaces) demoSorted) 0 5 = ok [] ∧
    aroundFace (finalize (ofFaces demoFaces) demoSorted) [(3, 4)] 2 = ok [1] ∧
    aroundFace (finalize (ofFaces demoFaces) demoSorted) [] 1 = ok [0, 2] := by
  refine ⟨⟨demoSorted, by decide +kernel, ?_, rfl⟩, by decide +kernel, by decide +kernel, by decide +kernel, by decide +kernel⟩
  simp [demoSorted, pairLt]
example : ∃ u i, 4 ≤ u ∧ Spec.Incident demoFaces u i := ⟨6, 3, by omega, ⟨3, 4, 6⟩, rfl, by simp⟩

end Kigumi.Props
