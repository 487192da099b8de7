import Verif.Model.AABB
import Verif.Proofs.Parallel
import Verif.Tactics

/-! Helper lemmas for the AABB tree. -/
namespace Kigumi.AABB
open Kigumi Outcome

variable {L B Q : Type}

/-- A memory cell. -/
inductive Cell where
  | node (i : Nat)
  | leaf (i : Nat)

def view : Prog.View (Mem L B) Cell (Node B ⊕ L) where
  get m c := match c with
    | .node i => .inl (m.nodes i)
    | .leaf i => .inr (m.leaves i)
  ext m m' h := by
    cases m with | mk n1 l1 => cases m' with | mk n2 l2 =>
    have h1 : n1 = n2 := funext fun i => Sum.inl.inj (h (.node i))
    have h2 : l1 = l2 := funext fun i => Sum.inr.inj (h (.leaf i))
    rw [h1, h2]

/-- Nodes and leaves belonging to the subtree of node `k` with leaves `[f, f + m)`. -/
def Foot (k f m : Nat) : Cell → Prop
  | .node i => k ≤ i ∧ i < k + (m - 1)
  | .leaf i => f ≤ i ∧ i < f + m

theorem slice_congr {mem mem' : Mem L B} {f m : Nat} (h : ∀ i, f ≤ i → i < f + m → mem.leaves i = mem'.leaves i) :
    slice mem f m = slice mem' f m := by
  unfold slice
  apply List.map_congr_left
  intro i hi
  rw [List.mem_range'_1] at hi
  exact h i hi.1 hi.2

theorem leaf_of_agree {mem mem' : Mem L B} {F : Cell → Prop} (h : ∀ c, F c → view.get mem c = view.get mem' c) {i : Nat} (hi : F (.leaf i)) :
    mem.leaves i = mem'.leaves i := Sum.inr.inj (h (.leaf i) hi)

theorem node_of_agree {mem mem' : Mem L B} {F : Cell → Prop} (h : ∀ c, F c → view.get mem c = view.get mem' c) {i : Nat} (hi : F (.node i)) :
    mem.nodes i = mem'.nodes i := Sum.inl.inj (h (.node i) hi)

theorem setBox_local (ops : Boxes L B Q) {k f m : Nat} (hm : 2 ≤ m) : Prog.Local view (Foot k f m) (setBox ops k f m) := by
  constructor
  · intro mem c hc
    cases c with
    | leaf i => rfl
    | node i =>
      have : i ≠ k := by rintro rfl; exact hc ⟨Nat.le_refl _, by omega⟩
      simp [view, setBox, this]
  · intro mem mem' h c hc
    cases c with
    | leaf i => exact h (.leaf i) hc
    | node i =>
      have hs : slice mem f m = slice mem' f m := slice_congr (fun i h1 h2 => leaf_of_agree h ⟨h1, h2⟩)
      have hn := node_of_agree h hc
      by_cases hik : i = k
      · subst hik; simp [view, setBox, hs, hn]
      · simp [view, setBox, hik, hn]

theorem setPtrs_local {k f m : Nat} (l r : Ptr) (hm : 2 ≤ m) : Prog.Local (view (L := L) (B := B)) (Foot k f m) (setPtrs k l r) := by
  constructor
  · intro mem c hc
    cases c with
    | leaf i => rfl
    | node i =>
      have : i ≠ k := by rintro rfl; exact hc ⟨Nat.le_refl _, by omega⟩
      simp [view, setPtrs, this]
  · intro mem mem' h c hc
    cases c with
    | leaf i => exact h (.leaf i) hc
    | node i =>
      have hn := node_of_agree h hc
      by_cases hik : i = k
      · subst hik; simp [view, setPtrs, hn]
      · simp [view, setPtrs, hik, hn]

theorem rearrange_local (arr : Nat → List L → List L) {k f m : Nat} :
    Prog.Local (view (L := L) (B := B)) (Foot k f m) (rearrange arr k f m) := by
  constructor
  · intro mem c hc
    cases c with
    | node i => rfl
    | leaf i =>
      have : ¬ (f ≤ i ∧ i < f + m) := hc
      simp [view, rearrange, this]
  · intro mem mem' h c hc
    cases c with
    | node i => exact h (.node i) hc
    | leaf i =>
      have hs : slice mem f m = slice mem' f m := slice_congr (fun i h1 h2 => leaf_of_agree h ⟨h1, h2⟩)
      have hn := leaf_of_agree h hc
      simp [view, rearrange, hs, hn]

theorem foot_left {k f m : Nat} (hm : 4 ≤ m) : ∀ c, Foot (k + 1) f (m / 2) c → Foot k f m c := by
  intro c hc; cases c <;> simp only [Foot] at * <;> omega

theorem foot_right {k f m : Nat} (hm : 4 ≤ m) : ∀ c, Foot (k + m / 2) (f + m / 2) (m - m / 2) c → Foot k f m c := by
  intro c hc; cases c <;> simp only [Foot] at * <;> omega

theorem foot_disjoint {k f m : Nat} (hm : 4 ≤ m) : ∀ c, Foot (k + 1) f (m / 2) c → ¬ Foot (k + m / 2) (f + m / 2) (m - m / 2) c := by
  intro c hc; cases c <;> simp only [Foot] at * <;> omega

theorem build_sep (ops : Boxes L B Q) (arr : Nat → List L → List L) (limit : Nat) : ∀ fuel k f m d, 2 ≤ m →
    Prog.Sep (view (L := L) (B := B)) (Foot k f m) (build ops arr limit fuel k f m d) := by
  intro fuel
  induction fuel with
  | zero => intro k f m d _; exact .skip
  | succ fuel ih =>
    intro k f m d hm
    unfold build
    refine .seq (.act (setBox_local ops hm)) ?_
    split
    · exact .act (setPtrs_local _ _ hm)
    · split
      · rename_i h3
        refine .seq (.act (rearrange_local arr)) (.seq (.act (setPtrs_local _ _ hm)) ?_)
        refine (ih (k + 1) (f + 1) (m - 1) (d + 1) (by omega)).mono ?_
        intro c hc; cases c <;> simp only [Foot] at * <;> omega
      · have h4 : 4 ≤ m := by omega
        refine .seq (.act (rearrange_local arr)) (.seq (.act (setPtrs_local _ _ hm)) ?_)
        have hl := ih (k + 1) f (m / 2) (d + 1) (by omega)
        have hr := ih (k + m / 2) (f + m / 2) (m - m / 2) (d + 1) (by omega)
        split
        · exact .par hl hr (foot_disjoint h4) (foot_left h4) (foot_right h4)
        · exact .seq (hl.mono (foot_left h4)) (hr.mono (foot_right h4))

theorem construct_sep (ops : Boxes L B Q) (arr : Nat → List L → List L) (limit n : Nat) :
    Prog.Sep (view (L := L) (B := B)) (Foot 0 0 n) (construct ops arr limit n) := by
  unfold construct
  split
  · exact .skip
  · exact build_sep ops arr limit n 0 0 n 0 (by omega)

theorem build_limit (ops : Boxes L B Q) (arr : Nat → List L → List L) (limit limit' : Nat) : ∀ fuel k f m d d' mem,
    (build ops arr limit fuel k f m d).run mem = (build ops arr limit' fuel k f m d').run mem := by
  intro fuel
  induction fuel with
  | zero => intros; rfl
  | succ fuel ih =>
    intro k f m d d' mem
    unfold build
    simp only [Prog.run]
    by_cases h2 : m = 2
    · rw [if_pos h2, if_pos h2]
    · rw [if_neg h2, if_neg h2]
      by_cases h3 : m = 3
      · rw [if_pos h3, if_pos h3]; simp only [Prog.run]; exact ih ..
      · rw [if_neg h3, if_neg h3]
        simp only [Prog.run]
        have key : ∀ (lim : Nat) (d : Nat) (mem : Mem L B), (if d < lim then
            Prog.par (build ops arr lim fuel (k + 1) f (m / 2) (d + 1)) (build ops arr lim fuel (k + m / 2) (f + m / 2) (m - m / 2) (d + 1))
          else
            Prog.seq (build ops arr lim fuel (k + 1) f (m / 2) (d + 1)) (build ops arr lim fuel (k + m / 2) (f + m / 2) (m - m / 2) (d + 1))).run mem
          = (build ops arr lim fuel (k + m / 2) (f + m / 2) (m - m / 2) (d + 1)).run ((build ops arr lim fuel (k + 1) f (m / 2) (d + 1)).run mem) := by
          intro lim d mem; split <;> rfl
        rw [key, key, ih (k + 1) f (m / 2) (d + 1) (d' + 1), ih (k + m / 2) _ _ (d + 1) (d' + 1)]

/-- An action whose effect reads and writes only the nodes `N` and the leaves `F`. -/
structure Touches (N F : Nat → Prop) (a : Mem L B → Mem L B) : Prop where
  nodes_out : ∀ m i, ¬ N i → (a m).nodes i = m.nodes i
  leaves_out : ∀ m i, ¬ F i → (a m).leaves i = m.leaves i
  dep : ∀ m m' : Mem L B, (∀ i, N i → m.nodes i = m'.nodes i) → (∀ i, F i → m.leaves i = m'.leaves i) →
    (∀ i, N i → (a m).nodes i = (a m').nodes i) ∧ (∀ i, F i → (a m).leaves i = (a m').leaves i)

/-- The nodes and leaves met in a depth-first walk along the stored pointers. -/
inductive PreorderOf (mem : Mem L B) : Ptr → List Nat → List Nat → Prop
  | leaf {i} : PreorderOf mem (.leaf i) [] [i]
  | node {k ns ls ns' ls'} : PreorderOf mem (mem.nodes k).left ns ls → PreorderOf mem (mem.nodes k).right ns' ls' →
      PreorderOf mem (.node k) (k :: (ns ++ ns')) (ls ++ ls')

/-- The box test is monotone. -/
structure Mono (ops : Boxes L B Q) : Prop where
  left : ∀ b c q, ops.meets b q = true → ops.meets (ops.join b c) q = true
  right : ∀ b c q, ops.meets c q = true → ops.meets (ops.join b c) q = true

theorem foldl_meets {ops : Boxes L B Q} (hmono : Mono ops) (ls : List L) (b : B) (q : Q) (h : ops.meets b q = true) :
    ops.meets (ls.foldl (fun b l => ops.join b (ops.ofLeaf l)) b) q = true := by
  induction ls generalizing b with
  | nil => exact h
  | cons l ls ih => exact ih _ (hmono.left _ _ _ h)

theorem boxFrom_meets {ops : Boxes L B Q} (hmono : Mono ops) {ls : List L} {l : L} (hl : l ∈ ls) {q : Q}
    (h : ops.meets (ops.ofLeaf l) q = true) : ops.meets (boxFrom ops ls) q = true := by
  unfold boxFrom
  generalize ops.empty = b
  induction ls generalizing b with
  | nil => simp at hl
  | cons x ls ih =>
    rw [List.foldl_cons]
    rcases List.mem_cons.1 hl with rfl | hl
    · exact foldl_meets hmono _ _ _ (hmono.right _ _ _ h)
    · exact ih hl _

/-- The subtree at node `k` describes the leaves `[f, f + m)`. -/
inductive TreeAt (ops : Boxes L B Q) (mem : Mem L B) : Nat → Nat → Nat → Prop
  | two {k f} : (mem.nodes k).left = .leaf f → (mem.nodes k).right = .leaf (f + 1) →
      (∀ i q, f ≤ i → i < f + 2 → ops.meets (ops.ofLeaf (mem.leaves i)) q = true → ops.meets (mem.nodes k).box q = true) →
      TreeAt ops mem k f 2
  | three {k f} : (mem.nodes k).left = .leaf f → (mem.nodes k).right = .node (k + 1) →
      (∀ i q, f ≤ i → i < f + 3 → ops.meets (ops.ofLeaf (mem.leaves i)) q = true → ops.meets (mem.nodes k).box q = true) →
      TreeAt ops mem (k + 1) (f + 1) 2 → TreeAt ops mem k f 3
  | node {k f m} : 4 ≤ m → (mem.nodes k).left = .node (k + 1) → (mem.nodes k).right = .node (k + m / 2) →
      (∀ i q, f ≤ i → i < f + m → ops.meets (ops.ofLeaf (mem.leaves i)) q = true → ops.meets (mem.nodes k).box q = true) →
      TreeAt ops mem (k + 1) f (m / 2) → TreeAt ops mem (k + m / 2) (f + m / 2) (m - m / 2) → TreeAt ops mem k f m

theorem TreeAt.covers {ops : Boxes L B Q} {mem : Mem L B} {k f m : Nat} (h : TreeAt ops mem k f m) :
    ∀ i q, f ≤ i → i < f + m → ops.meets (ops.ofLeaf (mem.leaves i)) q = true → ops.meets (mem.nodes k).box q = true := by
  cases h <;> assumption

theorem TreeAt.frame {ops : Boxes L B Q} {mem mem' : Mem L B} {k f m : Nat} (h : TreeAt ops mem k f m) :
    (∀ c, Foot k f m c → view.get mem c = view.get mem' c) → TreeAt ops mem' k f m := by
  induction h with
  | @two k f h1 h2 h3 =>
    intro ha
    have hn := node_of_agree ha (i := k) (show Foot k f 2 (.node k) from ⟨Nat.le_refl _, by omega⟩)
    refine .two (by rw [← hn]; exact h1) (by rw [← hn]; exact h2) ?_
    intro i q hi hi' hq
    rw [← hn]; rw [← leaf_of_agree ha ⟨hi, hi'⟩] at hq
    exact h3 i q hi hi' hq
  | @three k f h1 h2 h3 _ ih =>
    intro ha
    have hn := node_of_agree ha (i := k) (show Foot k f 3 (.node k) from ⟨Nat.le_refl _, by omega⟩)
    refine .three (by rw [← hn]; exact h1) (by rw [← hn]; exact h2) ?_ (ih ?_)
    · intro i q hi hi' hq
      rw [← hn]; rw [← leaf_of_agree ha ⟨hi, hi'⟩] at hq
      exact h3 i q hi hi' hq
    · intro c hc
      apply ha
      cases c <;> simp only [Foot] at * <;> omega
  | @node k f m h4 h1 h2 h3 _ _ ih1 ih2 =>
    intro ha
    have hn := node_of_agree ha (i := k) (show Foot k f m (.node k) from ⟨Nat.le_refl _, by omega⟩)
    refine .node h4 (by rw [← hn]; exact h1) (by rw [← hn]; exact h2) ?_ (ih1 fun c hc => ha c (foot_left h4 c hc))
      (ih2 fun c hc => ha c (foot_right h4 c hc))
    intro i q hi hi' hq
    rw [← hn]; rw [← leaf_of_agree ha ⟨hi, hi'⟩] at hq
    exact h3 i q hi hi' hq

theorem slice_rearrange {arr : Nat → List L → List L} (harr : ∀ k l, (arr k l).Perm l) (mem : Mem L B) (k f m : Nat) :
    slice (rearrange arr k f m mem) f m = arr k (slice mem f m) := by
  have hlen : (arr k (slice mem f m)).length = m := by
    rw [(harr k _).length_eq]; simp [slice]
  apply List.ext_getElem?
  intro i
  by_cases hi : i < m
  · have h1 : (slice (rearrange arr k f m mem) f m)[i]? = some ((rearrange arr k f m mem).leaves (f + i)) := by
      unfold slice
      rw [List.getElem?_map, List.getElem?_range' hi]; simp
    rw [h1]
    unfold rearrange
    simp only
    rw [if_pos ⟨by omega, by omega⟩, Nat.add_sub_cancel_left]
    rw [List.getElem?_eq_getElem (by omega)]; rfl
  · rw [List.getElem?_eq_none (by simp [slice]; omega), List.getElem?_eq_none (by omega)]

theorem slice_append (mem : Mem L B) (f a b : Nat) : slice mem f a ++ slice mem (f + a) b = slice mem f (a + b) := by
  unfold slice
  rw [← List.map_append, List.range'_append_1]

theorem mem_slice {mem : Mem L B} {f m i : Nat} (h1 : f ≤ i) (h2 : i < f + m) : mem.leaves i ∈ slice mem f m := by
  unfold slice
  exact List.mem_map_of_mem (List.mem_range'_1.2 ⟨h1, h2⟩)

theorem build_tree {ops : Boxes L B Q} (hmono : Mono ops) {arr : Nat → List L → List L} (harr : ∀ k l, (arr k l).Perm l)
    (limit : Nat) : ∀ fuel k f m d mem, 2 ≤ m → m ≤ fuel →
    TreeAt ops ((build ops arr limit fuel k f m d).run mem) k f m ∧
    (slice ((build ops arr limit fuel k f m d).run mem) f m).Perm (slice mem f m) := by
  intro fuel
  induction fuel with
  | zero => intro k f m d mem h1 h2; omega
  | succ fuel ih =>
    intro k f m d mem hm hmf
    -- covering by the box computed from the leaves at the start
    have cover : ∀ mem' : Mem L B, (slice mem' f m).Perm (slice mem f m) → (mem'.nodes k).box = boxFrom ops (slice mem f m) →
        ∀ i q, f ≤ i → i < f + m → ops.meets (ops.ofLeaf (mem'.leaves i)) q = true → ops.meets (mem'.nodes k).box q = true := by
      intro mem' hp hb i q h1 h2 hq
      rw [hb]
      exact boxFrom_meets hmono (hp.mem_iff.1 (mem_slice h1 h2)) hq
    unfold build
    simp only [Prog.run]
    have hs1 : slice (setBox ops k f m mem) f m = slice mem f m := rfl
    by_cases h2 : m = 2
    · rw [if_pos h2]
      simp only [Prog.run]
      subst h2
      refine ⟨.two (by simp [setPtrs]) (by simp [setPtrs]) ?_, by rfl⟩
      exact cover _ (by rfl) (by simp [setPtrs, setBox])
    · rw [if_neg h2]
      by_cases h3 : m = 3
      · rw [if_pos h3]
        simp only [Prog.run]
        subst h3
        set mem2 := rearrange arr k f 3 (setBox ops k f 3 mem) with hmem2
        set mem3 := setPtrs k (.leaf f) (.node (k + 1)) mem2 with hmem3
        have hsl : slice mem3 f 3 = arr k (slice mem f 3) := by
          have : slice mem3 f 3 = slice mem2 f 3 := rfl
          rw [this, hmem2, slice_rearrange harr, hs1]
        obtain ⟨t1, t2⟩ := ih (k + 1) (f + 1) 2 (d + 1) mem3 (by omega) (by omega)
        have hloc := (build_sep ops arr limit fuel (k + 1) (f + 1) 2 (d + 1) (by omega)).local_run
        set mem4 := (build ops arr limit fuel (k + 1) (f + 1) 2 (d + 1)).run mem3 with hmem4
        have hn : mem4.nodes k = mem3.nodes k :=
          Sum.inl.inj (hloc.out mem3 (.node k) (by simp only [Foot]; omega))
        have hl : mem4.leaves f = mem3.leaves f :=
          Sum.inr.inj (hloc.out mem3 (.leaf f) (by simp only [Foot]; omega))
        have hperm : (slice mem4 f 3).Perm (slice mem f 3) := by
          have e : ∀ mm : Mem L B, slice mm f 3 = mm.leaves f :: slice mm (f + 1) 2 := fun mm => rfl
          refine List.Perm.trans ?_ (harr k _)
          rw [← hsl, e, e, hl]
          exact t2.cons _
        refine ⟨.three ?_ ?_ ?_ t1, hperm⟩
        · show (mem4.nodes k).left = _; rw [hn]; simp [hmem3, setPtrs]
        · show (mem4.nodes k).right = _; rw [hn]; simp [hmem3, setPtrs]
        · exact cover mem4 hperm (by rw [hn]; simp [hmem3, setPtrs, hmem2, rearrange, setBox])
      · rw [if_neg h3]
        have h4 : 4 ≤ m := by omega
        simp only [Prog.run]
        set mem2 := rearrange arr k f m (setBox ops k f m mem) with hmem2
        set mem3 := setPtrs k (.node (k + 1)) (.node (k + m / 2)) mem2 with hmem3
        have hrun : (if d < limit then
            Prog.par (build ops arr limit fuel (k + 1) f (m / 2) (d + 1)) (build ops arr limit fuel (k + m / 2) (f + m / 2) (m - m / 2) (d + 1))
          else
            Prog.seq (build ops arr limit fuel (k + 1) f (m / 2) (d + 1)) (build ops arr limit fuel (k + m / 2) (f + m / 2) (m - m / 2) (d + 1))).run mem3
          = (build ops arr limit fuel (k + m / 2) (f + m / 2) (m - m / 2) (d + 1)).run ((build ops arr limit fuel (k + 1) f (m / 2) (d + 1)).run mem3) := by
          split <;> rfl
        rw [hrun]
        have hsl : slice mem3 f m = arr k (slice mem f m) := by
          have : slice mem3 f m = slice mem2 f m := rfl
          rw [this, hmem2, slice_rearrange harr, hs1]
        obtain ⟨t1, t2⟩ := ih (k + 1) f (m / 2) (d + 1) mem3 (by omega) (by omega)
        have hloc1 := (build_sep ops arr limit fuel (k + 1) f (m / 2) (d + 1) (by omega)).local_run
        set mem4 := (build ops arr limit fuel (k + 1) f (m / 2) (d + 1)).run mem3 with hmem4
        obtain ⟨t3, t4⟩ := ih (k + m / 2) (f + m / 2) (m - m / 2) (d + 1) mem4 (by omega) (by omega)
        have hloc2 := (build_sep ops arr limit fuel (k + m / 2) (f + m / 2) (m - m / 2) (d + 1) (by omega)).local_run
        set mem5 := (build ops arr limit fuel (k + m / 2) (f + m / 2) (m - m / 2) (d + 1)).run mem4 with hmem5
        have hn : mem5.nodes k = mem3.nodes k := by
          have a : mem5.nodes k = mem4.nodes k := Sum.inl.inj (hloc2.out mem4 (.node k) (by simp only [Foot]; omega))
          have b : mem4.nodes k = mem3.nodes k := Sum.inl.inj (hloc1.out mem3 (.node k) (by simp only [Foot]; omega))
          rw [a, b]
        have ag1 : ∀ c, Foot (k + 1) f (m / 2) c → view.get mem4 c = view.get mem5 c := by
          intro c hc; symm; exact hloc2.out mem4 c (foot_disjoint h4 c hc)
        have hsA : slice mem5 f (m / 2) = slice mem4 f (m / 2) :=
          slice_congr fun i a b => (leaf_of_agree ag1 ⟨a, b⟩).symm
        have hsB : slice mem4 (f + m / 2) (m - m / 2) = slice mem3 (f + m / 2) (m - m / 2) := by
          apply slice_congr
          intro i a b
          exact Sum.inr.inj (hloc1.out mem3 (.leaf i) (by simp only [Foot]; omega))
        have hadd : m / 2 + (m - m / 2) = m := by omega
        have hperm : (slice mem5 f m).Perm (slice mem f m) := by
          refine List.Perm.trans ?_ (harr k _)
          rw [← hsl]
          have e5 := slice_append mem5 f (m / 2) (m - m / 2)
          have e3 := slice_append mem3 f (m / 2) (m - m / 2)
          rw [hadd] at e5 e3
          rw [← e5, ← e3, hsA]
          refine List.Perm.append t2 ?_
          rw [← hsB]; exact t4
        refine ⟨.node h4 ?_ ?_ ?_ (t1.frame ag1) t3, hperm⟩
        · rw [hn]; simp [hmem3, setPtrs]
        · rw [hn]; simp [hmem3, setPtrs]
        · exact cover mem5 hperm (by rw [hn]; simp [hmem3, setPtrs, hmem2, rearrange, setBox])

theorem emit_eq (ops : Boxes L B Q) (mem : Mem L B) (q : Q) (i : Nat) :
    emit ops mem q i = [i].filter (fun i => ops.meets (ops.ofLeaf (mem.leaves i)) q) := by
  unfold emit; simp only [List.filter_cons, List.filter_nil]

theorem traverse_eq {ops : Boxes L B Q} {mem : Mem L B} {k f m : Nat} (h : TreeAt ops mem k f m) (q : Q) : ∀ fuel, m ≤ fuel →
    traverse ops mem q fuel m k = ok ((List.range' f m).filter (fun i => ops.meets (ops.ofLeaf (mem.leaves i)) q)) := by
  -- a subtree whose box misses the query contains no leaf meeting it
  have prune : ∀ {k f m}, TreeAt ops mem k f m → ops.meets (mem.nodes k).box q = false →
      (List.range' f m).filter (fun i => ops.meets (ops.ofLeaf (mem.leaves i)) q) = [] := by
    intro k f m ht hb
    rw [List.filter_eq_nil_iff]
    intro i hi hq
    rw [List.mem_range'_1] at hi
    have := ht.covers i q hi.1 hi.2 hq
    rw [hb] at this; simp at this
  induction h with
  | two h1 h2 _ =>
    intro fuel hf
    obtain ⟨fuel, rfl⟩ : ∃ n, fuel = n + 1 := ⟨fuel - 1, by omega⟩
    simp only [traverse, h1, h2, asLeaf, emit_eq, ok_bind, if_true]
    rw [← List.filter_append]; rfl
  | @three k f h1 h2 _ ht ih =>
    intro fuel hf
    obtain ⟨fuel, rfl⟩ : ∃ n, fuel = n + 1 := ⟨fuel - 1, by omega⟩
    have e := ih fuel (by omega)
    have p := fun h => prune ht h
    have hr : List.range' f 3 = [f] ++ List.range' (f + 1) 2 := rfl
    simp only [traverse, h1, h2, asLeaf, asNode, emit_eq, ok_bind, if_true]
    rw [if_neg (by decide), hr, List.filter_append]
    cases hb : ops.meets (mem.nodes (k + 1)).box q
    · rw [p hb]; simp
    · simp only [if_true, e, ok_bind]
  | @node k f m h4 h1 h2 _ ht1 ht2 ih1 ih2 =>
    intro fuel hf
    obtain ⟨fuel, rfl⟩ : ∃ n, fuel = n + 1 := ⟨fuel - 1, by omega⟩
    have e1 := ih1 fuel (by omega)
    have e2 := ih2 fuel (by omega)
    have p1 := fun h => prune ht1 h
    have p2 := fun h => prune ht2 h
    have hadd : m / 2 + (m - m / 2) = m := by omega
    have hr : List.range' f m = List.range' f (m / 2) ++ List.range' (f + m / 2) (m - m / 2) := by
      rw [List.range'_append_1, hadd]
    simp only [traverse, h1, h2, asNode, ok_bind]
    rw [if_neg (by omega), if_neg (by omega), hr, List.filter_append]
    cases hb1 : ops.meets (mem.nodes (k + 1)).box q <;> cases hb2 : ops.meets (mem.nodes (k + m / 2)).box q
    · rw [p1 hb1, p2 hb2]; simp
    · rw [p1 hb1]; simp [e2]
    · rw [p2 hb2]; simp [e1]
    · simp only [if_true, e1, e2, ok_bind]

theorem Touches.of_local {G : Cell → Prop} {a : Mem L B → Mem L B} (h : Prog.Local view G a) :
    Touches (fun i => G (.node i)) (fun i => G (.leaf i)) a := by
  refine ⟨fun m i hi => Sum.inl.inj (h.out m (.node i) hi), fun m i hi => Sum.inr.inj (h.out m (.leaf i) hi), ?_⟩
  intro m m' h1 h2
  have := h.dep m m' (by
    intro c hc
    cases c with
    | node i => exact congrArg Sum.inl (h1 i hc)
    | leaf i => exact congrArg Sum.inr (h2 i hc))
  exact ⟨fun i hi => Sum.inl.inj (this (.node i) hi), fun i hi => Sum.inr.inj (this (.leaf i) hi)⟩

theorem TreeAt.preorder {ops : Boxes L B Q} {mem : Mem L B} {k f m : Nat} (h : TreeAt ops mem k f m) :
    PreorderOf mem (.node k) (List.range' k (m - 1)) (List.range' f m) := by
  induction h with
  | two h1 h2 _ =>
    refine .node (ns := []) (ls := [_]) (ns' := []) (ls' := [_]) ?_ ?_
    · rw [h1]; exact .leaf
    · rw [h2]; exact .leaf
  | three h1 h2 _ _ ih =>
    refine .node (ns := []) (ls := [_]) (ns' := [_]) (ls' := [_, _]) ?_ ?_
    · rw [h1]; exact .leaf
    · rw [h2]; exact ih
  | @node k f m h4 h1 h2 _ _ _ ih1 ih2 =>
    have e1 : List.range' k (m - 1) = k :: (List.range' (k + 1) (m / 2 - 1) ++ List.range' (k + m / 2) (m - m / 2 - 1)) := by
      have : k + m / 2 = k + 1 + (m / 2 - 1) := by omega
      rw [this, List.range'_append_1, ← List.range'_succ]
      congr 1; omega
    have e2 : List.range' f m = List.range' f (m / 2) ++ List.range' (f + m / 2) (m - m / 2) := by
      rw [List.range'_append_1]; congr 1; omega
    rw [e1, e2]
    refine .node ?_ ?_
    · rw [h1]; exact ih1
    · rw [h2]; exact ih2

end Kigumi.AABB
