import Verif.Model.ClassifyGlobally
import Verif.Proofs.Flood
import Verif.Tactics

/-! # Global classification: representatives and floods -/
namespace Kigumi.Global
open Kigumi.Spec
open Kigumi.Flood (set_same set_other)

/-- Number of unvisited faces below `n`. -/
def unv (n : Nat) (vis : Nat → Bool) : Nat := (List.range n).countP (fun i => !vis i)

theorem unv_le (n : Nat) (vis : Nat → Bool) : unv n vis ≤ n := by
  unfold unv; have := List.countP_le_length (l := List.range n) (p := fun i => !vis i); simpa using this

theorem unv_set {n : Nat} {vis : Nat → Bool} {g : Nat} (hg : g < n) (hu : vis g = false) :
    unv n (Flood.set vis g true) + 1 = unv n vis := by
  induction n with
  | zero => omega
  | succ n ih =>
    have e : ∀ vis : Nat → Bool, unv (n + 1) vis = unv n vis + (if vis n = false then 1 else 0) := by
      intro vis; unfold unv; rw [List.range_succ, List.countP_append, List.countP_cons]; simp
    rw [e, e]
    by_cases hgn : g = n
    · subst hgn
      have hsame : unv g (Flood.set vis g true) = unv g vis := by
        unfold unv
        apply List.countP_congr
        intro i hi
        have : i ≠ g := by have := List.mem_range.1 hi; omega
        simp [set_other _ _ this]
      rw [hsame, hu, set_same]; simp
    · have h1 := ih (by omega)
      rw [set_other _ _ (fun h => hgn h.symm)]
      omega

abbrev visitStep (s : (Nat → Bool) × List Nat) (g : Nat) : (Nat → Bool) × List Nat :=
  if s.1 g then s else (Flood.set s.1 g true, s.2 ++ [g])

/-- Visiting a list of neighbours. -/
theorem visit_spec (n : Nat) : ∀ (l : List Nat) (vis : Nat → Bool) (q : List Nat), (∀ g ∈ l, g < n) →
    let s := l.foldl visitStep (vis, q)
    (∀ x, s.1 x = true ↔ vis x = true ∨ x ∈ l) ∧ (∀ x, x ∈ s.2 ↔ x ∈ q ∨ (s.1 x = true ∧ vis x = false)) ∧
      s.2.length + unv n s.1 = q.length + unv n vis
  | [], vis, q, _ => by simp
  | g :: l, vis, q, hl => by
    simp only [List.foldl_cons]
    by_cases hg : vis g = true
    · have e : visitStep (vis, q) g = (vis, q) := by simp [visitStep, hg]
      rw [e]
      obtain ⟨h1, h2, h3⟩ := visit_spec n l vis q (fun x hx => hl x (by simp [hx]))
      refine ⟨?_, h2, h3⟩
      intro x; rw [h1]
      constructor
      · rintro (h | h)
        · exact Or.inl h
        · exact Or.inr (by simp [h])
      · rintro (h | h)
        · exact Or.inl h
        · rcases List.mem_cons.1 h with rfl | h
          · exact Or.inl hg
          · exact Or.inr h
    · have hg' : vis g = false := by simpa using hg
      have e : visitStep (vis, q) g = (Flood.set vis g true, q ++ [g]) := by simp [visitStep, hg']
      rw [e]
      obtain ⟨h1, h2, h3⟩ := visit_spec n l (Flood.set vis g true) (q ++ [g]) (fun x hx => hl x (by simp [hx]))
      have hsetiff : ∀ x, Flood.set vis g true x = true ↔ x = g ∨ vis x = true := by
        intro x
        by_cases hx : x = g
        · subst hx; simp [set_same]
        · simp [set_other _ _ hx, hx]
      refine ⟨?_, ?_, ?_⟩
      · intro x; rw [h1, hsetiff, List.mem_cons]; tauto
      · intro x; rw [h2]
        simp only [List.mem_append, List.mem_singleton]
        constructor
        · rintro ((h | rfl) | ⟨h, h'⟩)
          · exact Or.inl h
          · exact Or.inr ⟨(h1 x).2 (Or.inl (by simp [set_same])), hg'⟩
          · refine Or.inr ⟨h, ?_⟩
            by_cases hx : x = g
            · subst hx; exact hg'
            · rwa [set_other _ _ hx] at h'
        · rintro (h | ⟨h, h'⟩)
          · exact Or.inl (Or.inl h)
          · by_cases hx : x = g
            · exact Or.inl (Or.inr hx)
            · exact Or.inr ⟨h, by rwa [set_other _ _ hx]⟩
      · rw [h3]
        have := unv_set (hl g (by simp)) hg'
        simp; omega

theorem bfs_spec {nbr : Nat → List Nat} {n : Nat} (hn : ∀ f, ∀ g ∈ nbr f, g < n) : ∀ (fuel : Nat) (vis : Nat → Bool) (q : List Nat),
    (∀ f ∈ q, vis f = true) → q.length + unv n vis ≤ fuel →
    ∃ vis', bfs nbr fuel vis q = some vis' ∧ (∀ x, vis x = true → vis' x = true) ∧
      (∀ f, f ∈ q ∨ (vis' f = true ∧ vis f = false) → ∀ g ∈ nbr f, vis' g = true) ∧
      (∀ Q : Nat → Prop, (∀ f ∈ q, Q f) → (∀ f, Q f → ∀ g ∈ nbr f, Q g) → ∀ x, vis' x = true → vis x = false → Q x)
  | fuel, vis, [], _, _ => by
    refine ⟨vis, by unfold bfs; rfl, fun x h => h, ?_, ?_⟩
    · rintro f (h | ⟨h, h'⟩)
      · simp at h
      · rw [h] at h'; simp at h'
    · intro Q _ _ x h h'; rw [h] at h'; simp at h'
  | 0, vis, f :: q, _, hf => by simp at hf
  | fuel + 1, vis, f :: q, hq, hf => by
    obtain ⟨h1, h2, h3⟩ := visit_spec n (nbr f) vis q (hn f)
    generalize hs : (nbr f).foldl visitStep (vis, q) = s at h1 h2 h3
    have hunfold : bfs nbr (fuel + 1) vis (f :: q) = bfs nbr fuel s.1 s.2 := by
      rw [← hs]; conv_lhs => unfold bfs
    obtain ⟨vis', a1, a2, a3, a4⟩ := bfs_spec hn fuel s.1 s.2 (by
      intro x hx
      rcases (h2 x).1 hx with hx | hx
      · exact (h1 x).2 (Or.inl (hq x (by simp [hx])))
      · exact hx.1) (by rw [h3]; simp at hf; omega)
    refine ⟨vis', by rw [hunfold]; exact a1, fun x hx => a2 x ((h1 x).2 (Or.inl hx)), ?_, ?_⟩
    · rintro x (hx | ⟨hx, hx'⟩) g hg
      · rcases List.mem_cons.1 hx with rfl | hx
        · exact a2 g ((h1 g).2 (Or.inr hg))
        · exact a3 x (Or.inl ((h2 x).2 (Or.inl hx))) g hg
      · by_cases hsx : s.1 x = true
        · exact a3 x (Or.inl ((h2 x).2 (Or.inr ⟨hsx, hx'⟩))) g hg
        · exact a3 x (Or.inr ⟨hx, by simpa using hsx⟩) g hg
    · intro Q hQ hcl x hx hx'
      have hQ' : ∀ y ∈ s.2, Q y := by
        intro y hy
        rcases (h2 y).1 hy with hy | ⟨hy, hy'⟩
        · exact hQ y (by simp [hy])
        · rcases (h1 y).1 hy with h | h
          · rw [h] at hy'; simp at hy'
          · exact hcl f (hQ f (by simp)) y h
      by_cases hsx : s.1 x = true
      · exact hQ' x ((h2 x).2 (Or.inr ⟨hsx, hx'⟩))
      · exact a4 Q hQ' hcl x hx (by simpa using hsx)

abbrev R (nbr : Nat → List Nat) : Nat → Nat → Prop := fun f g => g ∈ nbr f

theorem reach_unknown {nb : Nat → Nat → Prop} {tags : Nat → Tag} {r g : Nat} (h : Reach nb tags r g) (hr : tags r = .unknown) : tags g = .unknown := by
  cases h with
  | seed => exact hr
  | step _ _ h => exact h

theorem reach_trans {nb : Nat → Nat → Prop} {tags : Nat → Tag} {a b c : Nat} (h1 : Reach nb tags a b) (h2 : Reach nb tags b c) : Reach nb tags a c := by
  induction h2 with
  | seed => exact h1
  | step _ h3 h4 ih => exact .step ih h3 h4

theorem reach_symm {nb : Nat → Nat → Prop} (hs : ∀ f g, f ≠ g → nb f g → nb g f) {tags : Nat → Tag} {r g : Nat} (h : Reach nb tags r g)
    (hr : tags r = .unknown) : Reach nb tags g r := by
  induction h with
  | seed => exact .seed
  | @step f g h1 h2 h3 ih =>
    by_cases hfg : f = g
    · subst hfg; exact ih
    · exact reach_trans (.step .seed (hs _ _ hfg h2) (reach_unknown h1 hr)) ih

theorem components_spec {nbr : Nat → List Nat} {tags : Nat → Tag} {n : Nat} (hn : ∀ f, ∀ g ∈ nbr f, g < n)
    (hs : ∀ f g, f ≠ g → g ∈ nbr f → f ∈ nbr g) : ∀ (is : List Nat) (vis : Nat → Bool), (∀ i ∈ is, i < n) → is.Pairwise (· ≤ ·) →
    (∀ x, vis x = true → tags x = .unknown → ∀ g ∈ nbr x, vis g = true) →
    ∃ reps, components nbr tags n is vis = some reps ∧ (∀ r ∈ reps, r ∈ is ∧ tags r = .unknown ∧ vis r = false) ∧
      reps.Pairwise (fun r r' => ∀ g, Reach (R nbr) tags r g → ¬ Reach (R nbr) tags r' g) ∧
      (∀ x ∈ is, vis x = true ∨ tags x ≠ .unknown ∨ ∃ r ∈ reps, r ≤ x ∧ ∀ Q : Nat → Prop, Q r → (∀ f, Q f → ∀ g ∈ nbr f, Q g) → Q x)
  | [], vis, _, _, _ => by refine ⟨[], rfl, by simp, by simp, by simp⟩
  | i :: is, vis, hi, hso, hJ => by
    by_cases hv : vis i = true
    · obtain ⟨reps, h1, h2, h3, h4⟩ := components_spec hn hs is vis (fun x hx => hi x (by simp [hx])) hso.of_cons hJ
      refine ⟨reps, by simp [components, hv, h1], ?_, h3, ?_⟩
      · intro r hr; obtain ⟨a, b⟩ := h2 r hr; exact ⟨by simp [a], b⟩
      · intro x hx
        rcases List.mem_cons.1 hx with rfl | hx
        · exact Or.inl hv
        · exact h4 x hx
    have hv' : vis i = false := by simpa using hv
    have hset : ∀ x, Flood.set vis i true x = true ↔ x = i ∨ vis x = true := by
      intro x
      by_cases hx : x = i
      · subst hx; simp [set_same]
      · simp [set_other _ _ hx, hx]
    by_cases hu : tags i = .unknown
    · obtain ⟨vis', b1, b2, b3, b4⟩ := bfs_spec hn n (Flood.set vis i true) [i] (by simp [set_same]) (by
        have := unv_set (hi i (by simp)) hv'
        have := unv_le n vis
        simp; omega)
      have hvi : vis' i = true := b2 i (by simp [set_same])
      have hmono : ∀ x, vis x = true → vis' x = true := fun x hx => b2 x ((hset x).2 (Or.inr hx))
      have hJ' : ∀ x, vis' x = true → tags x = .unknown → ∀ g ∈ nbr x, vis' g = true := by
        intro x hx hux g hg
        by_cases hxi : x = i
        · exact b3 x (Or.inl (by simp [hxi])) g hg
        · by_cases hvx : vis x = true
          · exact hmono g (hJ x hvx hux g hg)
          · exact b3 x (Or.inr ⟨hx, by rw [set_other _ _ hxi]; simpa using hvx⟩) g hg
      obtain ⟨reps, h1, h2, h3, h4⟩ := components_spec hn hs is vis' (fun x hx => hi x (by simp [hx])) hso.of_cons hJ'
      refine ⟨i :: reps, by simp [components, hv', hu, b1, h1], ?_, ?_, ?_⟩
      · intro r hr
        rcases List.mem_cons.1 hr with rfl | hr
        · exact ⟨by simp, hu, hv'⟩
        · obtain ⟨a, b, c⟩ := h2 r hr
          refine ⟨by simp [a], b, ?_⟩
          by_contra hc
          have := hmono r (by simpa using hc)
          rw [this] at c; simp at c
      · refine List.pairwise_cons.2 ⟨?_, h3⟩
        intro r' hr' g hg hg'
        obtain ⟨-, hu', hnv⟩ := h2 r' hr'
        have hpath : Reach (R nbr) tags i r' := reach_trans hg (reach_symm hs hg' hu')
        have : ∀ y, Reach (R nbr) tags i y → vis' y = true := by
          intro y hy
          induction hy with
          | seed => exact hvi
          | step ha hb _ ih => exact hJ' _ ih (reach_unknown ha hu) _ hb
        rw [this _ hpath] at hnv; simp at hnv
      · intro x hx
        by_cases hxi : x = i
        · exact Or.inr (Or.inr ⟨i, by simp, Nat.le_of_eq hxi.symm, fun Q hQ _ => hxi ▸ hQ⟩)
        have hx' : x ∈ is := by
          rcases List.mem_cons.1 hx with h | h
          · exact absurd h hxi
          · exact h
        rcases h4 x hx' with h | h | ⟨r, hr, hQ⟩
        · by_cases hvx : vis x = true
          · exact Or.inl hvx
          · refine Or.inr (Or.inr ⟨i, by simp, List.rel_of_pairwise_cons hso hx', fun Q hQ hcl => ?_⟩)
            exact b4 Q (by simpa using hQ) hcl x h (by rw [set_other _ _ hxi]; simpa using hvx)
        · exact Or.inr (Or.inl h)
        · exact Or.inr (Or.inr ⟨r, by simp [hr], hQ⟩)
    · have hJ' : ∀ x, Flood.set vis i true x = true → tags x = .unknown → ∀ g ∈ nbr x, Flood.set vis i true g = true := by
        intro x hx hux g hg
        rcases (hset x).1 hx with rfl | hx
        · exact absurd hux hu
        · exact (hset g).2 (Or.inr (hJ x hx hux g hg))
      obtain ⟨reps, h1, h2, h3, h4⟩ := components_spec hn hs is (Flood.set vis i true) (fun x hx => hi x (by simp [hx])) hso.of_cons hJ'
      refine ⟨reps, by simp [components, hv', hu, h1], ?_, h3, ?_⟩
      · intro r hr
        obtain ⟨a, b, c⟩ := h2 r hr
        refine ⟨by simp [a], b, ?_⟩
        by_contra hc
        rw [(hset r).2 (Or.inr (by simpa using hc))] at c; simp at c
      · intro x hx
        by_cases hxi : x = i
        · exact Or.inr (Or.inl (hxi ▸ hu))
        rcases List.mem_cons.1 hx with h | hx'
        · exact absurd h hxi
        rcases h4 x hx' with h | h
        · rcases (hset x).1 h with h | h
          · exact absurd h hxi
          · exact Or.inl h
        · exact Or.inr h

/-- What is known about the neighbour lists. -/
structure Adj (nbr : Nat → List Nat) (n : Nat) : Prop where
  lt : ∀ f, ∀ g ∈ nbr f, g < n
  symm : ∀ f g, f ≠ g → g ∈ nbr f → f ∈ nbr g

/-- The representatives; every unclassified face is in the component of one, which is not after it. -/
theorem representatives_least {nbr : Nat → List Nat} {tags : Nat → Tag} {n : Nat} (ha : Adj nbr n) :
    ∃ reps, representatives nbr tags n = some reps ∧ (∀ r ∈ reps, r < n ∧ tags r = .unknown) ∧ reps.Nodup ∧
      (∀ r ∈ reps, ∀ r' ∈ reps, ∀ g, Reach (R nbr) tags r g → Reach (R nbr) tags r' g → r = r') ∧
      (∀ x, x < n → tags x = .unknown → ∃ r ∈ reps, r ≤ x ∧ ∀ Q : Nat → Prop, Q r → (∀ f, Q f → ∀ g ∈ nbr f, Q g) → Q x) := by
  obtain ⟨reps, h1, h2, h3, h4⟩ := components_spec (tags := tags) ha.lt ha.symm (List.range n) (fun _ => false) (by simp) (List.pairwise_le_range) (by simp)
  refine ⟨reps, h1, fun r hr => ⟨by simpa using (h2 r hr).1, (h2 r hr).2.1⟩, ?_, ?_, ?_⟩
  · exact h3.imp (fun {a b} h => by rintro rfl; exact h a .seed .seed)
  · intro r hr r' hr' g hg hg'
    by_contra hne
    have hsym : ∀ (l : List Nat), l.Pairwise (fun r r' => ∀ g, Reach (R nbr) tags r g → ¬ Reach (R nbr) tags r' g) →
        r ∈ l → r' ∈ l → False := by
      intro l hl
      induction l with
      | nil => simp
      | cons x l ih =>
        rw [List.pairwise_cons] at hl
        intro h5 h6
        rcases List.mem_cons.1 h5 with e5 | m5 <;> rcases List.mem_cons.1 h6 with e6 | m6
        · exact hne (e5.trans e6.symm)
        · exact hl.1 r' m6 g (e5 ▸ hg) hg'
        · exact hl.1 r m5 g (e6 ▸ hg') hg
        · exact ih hl.2 m5 m6
    exact hsym reps h3 hr hr'
  · intro x hx hu
    rcases h4 x (by simpa using hx) with h | h | h
    · simp at h
    · exact absurd hu h
    · exact h

theorem representatives_spec {nbr : Nat → List Nat} {tags : Nat → Tag} {n : Nat} (ha : Adj nbr n) :
    ∃ reps, representatives nbr tags n = some reps ∧ (∀ r ∈ reps, r < n ∧ tags r = .unknown) ∧ reps.Nodup ∧
      (∀ r ∈ reps, ∀ r' ∈ reps, ∀ g, Reach (R nbr) tags r g → Reach (R nbr) tags r' g → r = r') ∧
      (∀ x, x < n → tags x = .unknown → ∃ r ∈ reps, ∀ Q : Nat → Prop, Q r → (∀ f, Q f → ∀ g ∈ nbr f, Q g) → Q x) := by
  obtain ⟨reps, h1, h2, h3, h4, h5⟩ := representatives_least (tags := tags) ha
  exact ⟨reps, h1, h2, h3, h4, fun x hx hu => let ⟨r, hr, _, h⟩ := h5 x hx hu; ⟨r, hr, h⟩⟩

end Kigumi.Global
