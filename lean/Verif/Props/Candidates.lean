import Verif.Model.Candidates
import Verif.Props.AABB
import Verif.Props.ParallelDo

/-! # C32: candidate pairs -/
namespace Kigumi.Candidates
open Kigumi Outcome AABB ParallelDo
open Kigumi.Spec (Box P3)

/-- Collecting loops, for bodies that succeed on the elements of the range. -/
theorem collect_of {α E : Type} (P : Params (List α) E (List α)) (out : Nat → List α) (hi : P.init = []) (hb : ∀ i s, i < P.size → P.body i s = .ok (s ++ out i)) (hh : P.hasPost = true)
    (hp : ∀ g s, P.post g s = (g ++ s, none)) {configured hardware : Nat} (hc : 1 ≤ configured) {g : List α} {r : Result E (List α)} (h : ParallelDo.Returns P configured hardware g r) :
    r.exc = none ∧ r.acc.Perm (g ++ (List.range P.size).flatMap out) := by
  obtain ⟨h1, -, -, -, h2⟩ := Props.C13_exactly_once P (fun i s => s ++ out i) hb (fun g s => by rw [hp]) hc h
  obtain ⟨parts, hperm, -, ha⟩ := h2 hh
  refine ⟨h1, ?_⟩
  have e1 : ∀ (l : List Nat) (s : List α), l.foldl (fun s i => s ++ out i) s = s ++ l.flatMap out := by
    intro l; induction l with
    | nil => simp
    | cons i l ih => intro s; simp [ih]
  have e2 : ∀ (ps : List (List Nat)) (g : List α),
      (ps.map (fun l => l.foldl (fun s i => s ++ out i) P.init)).foldl (fun g s => (P.post g s).1) g = g ++ ps.flatten.flatMap out := by
    intro ps; induction ps with
    | nil => simp
    | cons p ps ih =>
      intro g; rw [List.map_cons, List.foldl_cons, ih, e1, hp, hi]; simp [List.flatMap_append]
  rw [ha, e2]
  exact (hperm.flatMap_right out).append_left g

theorem overlap_iff {b c : Box} (hb : ∃ p, b.Mem p) (hc : ∃ p, c.Mem p) : overlap b c = true ↔ ∃ p, b.Mem p ∧ c.Mem p := by
  obtain ⟨p, p1, p2, p3, p4, p5, p6⟩ := hb
  obtain ⟨q, q1, q2, q3, q4, q5, q6⟩ := hc
  unfold overlap
  constructor
  · intro h
    split at h; · cases h
    split at h; · cases h
    split at h; · cases h
    rename_i h1 h2 h3
    push Not at h1 h2 h3
    refine ⟨⟨max b.lo.x c.lo.x, max b.lo.y c.lo.y, max b.lo.z c.lo.z⟩, ⟨le_max_left _ _, max_le (by linarith) h1.1, le_max_left _ _, max_le (by linarith) h2.1, le_max_left _ _, max_le (by linarith) h3.1⟩,
      ⟨le_max_right _ _, max_le h1.2 (by linarith), le_max_right _ _, max_le h2.2 (by linarith), le_max_right _ _, max_le h3.2 (by linarith)⟩⟩
  · rintro ⟨r, ⟨r1, r2, r3, r4, r5, r6⟩, ⟨s1, s2, s3, s4, s5, s6⟩⟩
    rw [if_neg (by push Not; constructor <;> linarith), if_neg (by push Not; constructor <;> linarith), if_neg (by push Not; constructor <;> linarith)]

theorem overlap_join_left {b c q : Box} (h : overlap b q = true) : overlap (b.join c) q = true := by
  unfold overlap at *
  split at h; · cases h
  split at h; · cases h
  split at h; · cases h
  rename_i h1 h2 h3
  push Not at h1 h2 h3
  have m1 : b.hi.x ≤ (b.join c).hi.x := le_max_left _ _
  have m2 : b.hi.y ≤ (b.join c).hi.y := le_max_left _ _
  have m3 : b.hi.z ≤ (b.join c).hi.z := le_max_left _ _
  have m4 : (b.join c).lo.x ≤ b.lo.x := min_le_left _ _
  have m5 : (b.join c).lo.y ≤ b.lo.y := min_le_left _ _
  have m6 : (b.join c).lo.z ≤ b.lo.z := min_le_left _ _
  rw [if_neg (by push Not; constructor <;> linarith), if_neg (by push Not; constructor <;> linarith), if_neg (by push Not; constructor <;> linarith)]

theorem overlap_join_right {b c q : Box} (h : overlap c q = true) : overlap (b.join c) q = true := by
  have : b.join c = c.join b := by simp [Box.join, max_comm, min_comm]
  rw [this]; exact overlap_join_left h

theorem addPairs_ok (leftIsA : Bool) (aTags : List Tag) (bfi : Nat) : ∀ (l : List Nat) (acc : List (Nat × Nat)), (∀ a ∈ l, a < aTags.length) →
    addPairs leftIsA aTags bfi l acc = ok (acc ++ (l.filter (fun a => aTags[a]? = some .unknown)).map (fun a => if leftIsA then (a, bfi) else (bfi, a))) := by
  intro l
  induction l with
  | nil => intro acc _; simp [addPairs]
  | cons a l ih =>
    intro acc h
    have ha := h a (by simp)
    have ih := fun acc => ih acc (fun a ha => h a (List.mem_cons_of_mem _ ha))
    simp only [addPairs, at!, List.getElem?_eq_getElem ha, ok_bind]
    by_cases ht : aTags[a] = .unknown
    · simp [ht, ih, List.filter_cons, ha]
    · simp [ht, ih, List.filter_cons, ha]

theorem leaves_len (boxes : List Box) : (leavesOf boxes).length = boxes.length := by simp [leavesOf]

theorem mem_leaves {boxes : List Box} {i : Nat} {b : Box} : (i, b) ∈ leavesOf boxes ↔ boxes[i]? = some b := by
  unfold leavesOf
  rw [List.mem_map]
  constructor
  · rintro ⟨⟨b', i'⟩, h, e⟩
    cases e
    exact List.mem_zipIdx_iff_getElem?.1 h
  · intro h
    exact ⟨(b, i), List.mem_zipIdx_iff_getElem?.2 h, rfl⟩

theorem leaves_nodup (boxes : List Box) : ((leavesOf boxes).map Prod.fst).Nodup := by
  have : (leavesOf boxes).map Prod.fst = List.range' 0 boxes.length := by
    simp [leavesOf, List.map_map, Function.comp_def]
  rw [this]; exact List.nodup_range'

theorem core (arr : Nat → List (Nat × Box) → List (Nat × Box)) (harr : ∀ k l, (arr k l).Perm l) (limit configured hardware : Nat) (hc : 1 ≤ configured) (nodes : Nat → Node (Option Box)) (dflt : Nat × Box)
    (leftIsA : Bool) (aBoxes bQuery : List Box) (aTags bTags : List Tag) (hta : aTags.length = aBoxes.length) (htb : bTags.length = bQuery.length)
    {mem : Mem (Nat × Box) (Option Box)} (hm : Prog.Exec (construct boxOps arr limit (leavesOf aBoxes).length) (initial nodes (leavesOf aBoxes) dflt) .skip mem)
    {r : Result String (List (Nat × Nat))} (hr : ParallelDo.Returns (loop leftIsA mem aBoxes.length bQuery.length aTags bTags bQuery) configured hardware [] r) :
    r.exc = none ∧ r.acc.Nodup ∧ ∀ pr, pr ∈ r.acc ↔ ∃ i j, pr = (if leftIsA then (i, j) else (j, i)) ∧ aTags[i]? = some .unknown ∧ bTags[j]? = some .unknown ∧
      ∃ B C, aBoxes[i]? = some B ∧ bQuery[j]? = some C ∧ overlap B C = true := by
  have hq : ∀ q, ∃ ps, query boxOps mem aBoxes.length q = ok ps ∧ ps.Nodup ∧ (∀ p ∈ ps, p < aBoxes.length) ∧
      (ps.map mem.leaves).Perm ((leavesOf aBoxes).filter (fun l => overlap l.2 q)) := by
    intro q
    have := Props.C20_query_exact boxOps (by
      intro b c q h
      cases b with
      | none => cases h
      | some b => cases c with
        | none => exact h
        | some c => exact overlap_join_left h) (by
      intro b c q h
      cases c with
      | none => cases h
      | some c => cases b with
        | none => exact h
        | some b => exact overlap_join_right h) arr harr limit nodes (leavesOf aBoxes) dflt hm q
    rw [leaves_len] at this
    exact this
  -- what one body finds
  let found := fun (j : Nat) => ((leavesOf aBoxes).filter (fun l => match bQuery[j]? with | some q => overlap l.2 q | none => false)).map Prod.fst
  have hbody : ∀ j, j < bQuery.length → ∃ l : List Nat, (∀ s, body leftIsA mem aBoxes.length aTags bTags bQuery j s = ok (s ++ l.map (fun a => if leftIsA then (a, j) else (j, a)))) ∧
      l.Nodup ∧ ∀ i, i ∈ l ↔ bTags[j]? = some .unknown ∧ aTags[i]? = some .unknown ∧ ∃ B C, aBoxes[i]? = some B ∧ bQuery[j]? = some C ∧ overlap B C = true := by
    intro j hj
    have hj' : j < bTags.length := by omega
    by_cases ht : bTags[j] = .unknown
    · obtain ⟨ps, h1, h2, h3, h4⟩ := hq bQuery[j]
      have h5 := h4.map Prod.fst
      rw [List.map_map] at h5
      have hnd : ((leavesOf aBoxes).filter (fun l => overlap l.2 bQuery[j])).map Prod.fst |>.Nodup :=
        (leaves_nodup aBoxes).sublist (List.filter_sublist.map _)
      have hmem : ∀ i, i ∈ ps.map (fun p => (mem.leaves p).1) ↔ ∃ B, aBoxes[i]? = some B ∧ overlap B bQuery[j] = true := by
        intro i
        rw [show (fun p => (mem.leaves p).1) = Prod.fst ∘ mem.leaves from rfl, h5.mem_iff, List.mem_map]
        constructor
        · rintro ⟨⟨i', B⟩, hB, rfl⟩
          rw [List.mem_filter] at hB
          exact ⟨B, mem_leaves.1 hB.1, hB.2⟩
        · rintro ⟨B, hB, ho⟩
          exact ⟨(i, B), List.mem_filter.2 ⟨mem_leaves.2 hB, ho⟩, rfl⟩
      refine ⟨(ps.map (fun p => (mem.leaves p).1)).filter (fun a => aTags[a]? = some .unknown), ?_, ?_, ?_⟩
      · intro s
        simp only [body, at!, List.getElem?_eq_getElem hj', List.getElem?_eq_getElem hj, ok_bind, ht, ne_eq, not_true_eq_false, if_false, h1]
        apply addPairs_ok
        intro a ha
        obtain ⟨B, hB, -⟩ := (hmem a).1 ha
        by_contra hc
        rw [List.getElem?_eq_none (by omega)] at hB; cases hB
      · exact List.Nodup.filter _ (h5.nodup_iff.2 hnd)
      · intro i
        rw [List.mem_filter, hmem]
        simp only [List.getElem?_eq_getElem hj', List.getElem?_eq_getElem hj, ht, true_and, decide_eq_true_eq]
        constructor
        · rintro ⟨⟨B, h1, h2⟩, h3⟩; exact ⟨h3, B, _, h1, rfl, h2⟩
        · rintro ⟨h3, B, C, h1, h2, h4⟩; cases h2; exact ⟨⟨B, h1, h4⟩, h3⟩
    · refine ⟨[], ?_, by simp, ?_⟩
      · intro s; simp [body, at!, List.getElem?_eq_getElem hj', ht]
      · intro i; simp [List.getElem?_eq_getElem hj', ht]
  choose! out ho1 ho2 ho3 using hbody
  obtain ⟨g1, g2⟩ := collect_of (loop leftIsA mem aBoxes.length bQuery.length aTags bTags bQuery) (fun j => (out j).map (fun a => if leftIsA then (a, j) else (j, a))) rfl
    (by intro i s hi; simp only [loop, ho1 i hi, toExcept]) rfl (by intro g s; cases g <;> rfl) hc hr
  rw [List.nil_append] at g2
  have hmem : ∀ pr, pr ∈ (List.range bQuery.length).flatMap (fun j => (out j).map (fun a => if leftIsA then (a, j) else (j, a))) ↔ ∃ i j, pr = (if leftIsA then (i, j) else (j, i)) ∧ aTags[i]? = some .unknown ∧ bTags[j]? = some .unknown ∧
      ∃ B C, aBoxes[i]? = some B ∧ bQuery[j]? = some C ∧ overlap B C = true := by
    intro pr
    rw [List.mem_flatMap]
    constructor
    · rintro ⟨j, hj, h⟩
      obtain ⟨i, hi, rfl⟩ := List.mem_map.1 h
      have := (ho3 j (by simpa using hj) i).1 hi
      exact ⟨i, j, rfl, this.2.1, this.1, this.2.2⟩
    · rintro ⟨i, j, rfl, h1, h2, B, C, h3, h4, h5⟩
      have hj : j < bQuery.length := by
        by_contra hc
        rw [List.getElem?_eq_none (by omega)] at h4; cases h4
      exact ⟨j, by simpa using hj, List.mem_map.2 ⟨i, (ho3 j hj i).2 ⟨h2, h1, B, C, h3, h4, h5⟩, rfl⟩⟩
  refine ⟨g1, ?_, fun pr => g2.mem_iff.trans (hmem pr)⟩
  rw [g2.nodup_iff]
  show ((List.range bQuery.length).flatMap _).Nodup
  rw [List.nodup_flatMap]
  constructor
  · intro j hj
    refine (ho2 j (by simpa using hj)).map ?_
    intro a a' h
    cases leftIsA <;> simpa using h
  · refine List.nodup_range.pairwise_of_forall_ne ?_
    intro j _ j' _ hne
    intro pr h h'
    obtain ⟨i, -, rfl⟩ := List.mem_map.1 h
    obtain ⟨i', -, e⟩ := List.mem_map.1 h'
    apply hne
    cases leftIsA <;> simp at e
    · exact e.1.symm
    · exact e.2.symm

end Kigumi.Candidates

namespace Kigumi.Props
open Kigumi Outcome AABB ParallelDo Candidates
open Kigumi.Spec (Box P3)

/-- **Candidate pairs are exactly the pairs with overlapping boxes.** Whatever the schedule, the thread counts, the layout of the tree and which operand has more faces: the loop returns normally, with each pair (left face, right face) of faces that
are both still UNKNOWN and whose closed boxes have a common point exactly once, and nothing else. -/
theorem C32_pairs (arr : Nat → List (Nat × Box) → List (Nat × Box)) (harr : ∀ k l, (arr k l).Perm l) (limit configured hardware : Nat) (hc : 1 ≤ configured) (nodes : Nat → Node (Option Box)) (dflt : Nat × Box)
    (leftBoxes rightBoxes leftQuery rightQuery : List Box) (leftTags rightTags : List Tag)
    (hl : leftTags.length = leftBoxes.length) (hr : rightTags.length = rightBoxes.length) (hql : leftQuery.length = leftBoxes.length) (hqr : rightQuery.length = rightBoxes.length)
    (hne : ∀ b, b ∈ leftBoxes ∨ b ∈ rightBoxes ∨ b ∈ leftQuery ∨ b ∈ rightQuery → ∃ p, b.Mem p)
    {r : Result String (List (Nat × Nat))} (h : Candidates.Returns arr limit configured hardware nodes dflt leftBoxes rightBoxes leftQuery rightQuery leftTags rightTags r) :
    r.exc = none ∧ r.acc.Nodup ∧ ∀ i j, (i, j) ∈ r.acc ↔ leftTags[i]? = some .unknown ∧ rightTags[j]? = some .unknown ∧
      ∃ B C, (if leftBoxes.length < rightBoxes.length then leftBoxes else leftQuery)[i]? = some B ∧ (if leftBoxes.length < rightBoxes.length then rightQuery else rightBoxes)[j]? = some C ∧ ∃ p, B.Mem p ∧ C.Mem p := by
  unfold Candidates.Returns at h
  by_cases hlt : leftBoxes.length < rightBoxes.length
  · simp only [hlt, decide_true, if_true] at h ⊢
    obtain ⟨mem, hm, hr'⟩ := h
    obtain ⟨h1, h2, h3⟩ := core arr harr limit configured hardware hc nodes dflt true leftBoxes rightQuery leftTags rightTags hl (by omega) hm hr'
    refine ⟨h1, h2, ?_⟩
    intro i j
    rw [h3]
    constructor
    · rintro ⟨i', j', e, a, b, B, C, hB, hC, ho⟩
      cases e
      exact ⟨a, b, B, C, hB, hC, (overlap_iff (hne B (Or.inl (List.mem_of_getElem? hB))) (hne C (Or.inr (Or.inr (Or.inr (List.mem_of_getElem? hC)))))).1 ho⟩
    · rintro ⟨a, b, B, C, hB, hC, ho⟩
      exact ⟨i, j, rfl, a, b, B, C, hB, hC, (overlap_iff (hne B (Or.inl (List.mem_of_getElem? hB))) (hne C (Or.inr (Or.inr (Or.inr (List.mem_of_getElem? hC)))))).2 ho⟩
  · simp only [hlt, decide_false, if_false] at h ⊢
    obtain ⟨mem, hm, hr'⟩ := h
    obtain ⟨h1, h2, h3⟩ := core arr harr limit configured hardware hc nodes dflt false rightBoxes leftQuery rightTags leftTags hr (by omega) hm hr'
    refine ⟨h1, h2, ?_⟩
    intro i j
    rw [h3]
    constructor
    · rintro ⟨i', j', e, a, b, B, C, hB, hC, ho⟩
      simp at e
      obtain ⟨rfl, rfl⟩ := e
      obtain ⟨p, p1, p2⟩ := (overlap_iff (hne B (Or.inr (Or.inl (List.mem_of_getElem? hB)))) (hne C (Or.inr (Or.inr (Or.inl (List.mem_of_getElem? hC)))))).1 ho
      exact ⟨b, a, C, B, hC, hB, p, p2, p1⟩
    · rintro ⟨b, a, C, B, hC, hB, p, p2, p1⟩
      exact ⟨j, i, by simp, a, b, B, C, hB, hC, (overlap_iff (hne B (Or.inr (Or.inl (List.mem_of_getElem? hB)))) (hne C (Or.inr (Or.inr (Or.inl (List.mem_of_getElem? hC)))))).2 ⟨p, p1, p2⟩⟩

/-- `p` is a point of the triangle: a convex combination of the corners. -/
def InHull (t : Tri P3) (p : P3) : Prop :=
  ∃ u v w : ℚ, 0 ≤ u ∧ 0 ≤ v ∧ 0 ≤ w ∧ u + v + w = 1 ∧
    p = ⟨u * t.a.x + v * t.b.x + w * t.c.x, u * t.a.y + v * t.b.y + w * t.c.y, u * t.a.z + v * t.b.z + w * t.c.z⟩

/-- The box of a face computed from boxes around its corners contains the triangle. -/
theorem C32_faceBox (t : Tri P3) (b : Tri Box) (ha : b.a.Mem t.a) (hb : b.b.Mem t.b) (hc : b.c.Mem t.c) (p : P3) (h : InHull t p) : (faceBox b).Mem p := by
  obtain ⟨u, v, w, hu, hv, hw, hs, rfl⟩ := h
  have key : ∀ (lo hi a b c : ℚ), lo ≤ a → lo ≤ b → lo ≤ c → a ≤ hi → b ≤ hi → c ≤ hi → lo ≤ u * a + v * b + w * c ∧ u * a + v * b + w * c ≤ hi := by
    intro lo hi a b c h1 h2 h3 h4 h5 h6
    have e : ∀ z : ℚ, z = u * z + v * z + w * z := by intro z; rw [← add_mul, ← add_mul, hs, one_mul]
    constructor
    · rw [e lo]
      have := mul_le_mul_of_nonneg_left h1 hu; have := mul_le_mul_of_nonneg_left h2 hv; have := mul_le_mul_of_nonneg_left h3 hw
      linarith
    · rw [e hi]
      have := mul_le_mul_of_nonneg_left h4 hu; have := mul_le_mul_of_nonneg_left h5 hv; have := mul_le_mul_of_nonneg_left h6 hw
      linarith
  have h1 : (faceBox b).Mem t.a := Box.mem_join_left (Box.mem_join_left ha)
  have h2 : (faceBox b).Mem t.b := Box.mem_join_left (Box.mem_join_right hb)
  have h3 : (faceBox b).Mem t.c := Box.mem_join_right hc
  obtain ⟨a1, a2, a3, a4, a5, a6⟩ := h1
  obtain ⟨b1, b2, b3, b4, b5, b6⟩ := h2
  obtain ⟨c1, c2, c3, c4, c5, c6⟩ := h3
  obtain ⟨x1, x2⟩ := key _ _ _ _ _ a1 b1 c1 a2 b2 c2
  obtain ⟨y1, y2⟩ := key _ _ _ _ _ a3 b3 c3 a4 b4 c4
  obtain ⟨z1, z2⟩ := key _ _ _ _ _ a5 b5 c5 a6 b6 c6
  exact ⟨x1, x2, y1, y2, z1, z2⟩

/-- Boxes that contain the triangles. -/
def Encloses (boxes : List Box) (ts : List (Tri P3)) : Prop :=
  boxes.length = ts.length ∧ ∀ (i : Nat) t b, ts[i]? = some t → boxes[i]? = some b → ∀ p, InHull t p → b.Mem p

/-- **No intersection is missed.** If the boxes enclose the triangles (as those of `faceBox` do), every pair of faces that are still UNKNOWN and have a common point is among the candidates. -/
theorem C32_complete (arr : Nat → List (Nat × Box) → List (Nat × Box)) (harr : ∀ k l, (arr k l).Perm l) (limit configured hardware : Nat) (hc : 1 ≤ configured) (nodes : Nat → Node (Option Box)) (dflt : Nat × Box)
    (lt rt : List (Tri P3)) (leftBoxes rightBoxes leftQuery rightQuery : List Box) (leftTags rightTags : List Tag)
    (hl : leftTags.length = lt.length) (hr : rightTags.length = rt.length)
    (e1 : Encloses leftBoxes lt) (e2 : Encloses rightBoxes rt) (e3 : Encloses leftQuery lt) (e4 : Encloses rightQuery rt)
    {r : Result String (List (Nat × Nat))} (h : Candidates.Returns arr limit configured hardware nodes dflt leftBoxes rightBoxes leftQuery rightQuery leftTags rightTags r)
    {i j : Nat} {t u : Tri P3} (hi : lt[i]? = some t) (hj : rt[j]? = some u) (hti : leftTags[i]? = some .unknown) (htj : rightTags[j]? = some .unknown) {p : P3} (hp : InHull t p) (hq : InHull u p) :
    (i, j) ∈ r.acc := by
  have corner : ∀ t : Tri P3, InHull t t.a := fun t => ⟨1, 0, 0, by norm_num, by norm_num, by norm_num, by norm_num, by simp⟩
  have ne : ∀ {boxes : List Box} {ts : List (Tri P3)}, Encloses boxes ts → ∀ b ∈ boxes, ∃ p, b.Mem p := by
    intro boxes ts he b hb
    obtain ⟨k, hk, rfl⟩ := List.getElem_of_mem hb
    have hk' : k < ts.length := by rw [← he.1]; exact hk
    exact ⟨_, he.2 k ts[k] boxes[k] (by simp [hk']) (by simp [hk]) _ (corner _)⟩
  have get : ∀ {boxes : List Box} {ts : List (Tri P3)}, Encloses boxes ts → ∀ {k : Nat} {t : Tri P3} {p : P3}, ts[k]? = some t → InHull t p → ∃ b, boxes[k]? = some b ∧ b.Mem p := by
    intro boxes ts he k t p hk hp
    have hk' : k < boxes.length := by
      rw [he.1]; by_contra hc; rw [List.getElem?_eq_none (by omega)] at hk; cases hk
    exact ⟨boxes[k], by simp [hk'], he.2 k t _ hk (by simp [hk']) p hp⟩
  obtain ⟨-, -, hm⟩ := C32_pairs arr harr limit configured hardware hc nodes dflt leftBoxes rightBoxes leftQuery rightQuery leftTags rightTags (by rw [hl, e1.1]) (by rw [hr, e2.1]) (by rw [e3.1, e1.1]) (by rw [e4.1, e2.1])
    (by rintro b (h | h | h | h); exact ne e1 b h; exact ne e2 b h; exact ne e3 b h; exact ne e4 b h) h
  rw [hm]
  refine ⟨hti, htj, ?_⟩
  split
  · obtain ⟨B, b1, b2⟩ := get e1 hi hp
    obtain ⟨C, c1, c2⟩ := get e4 hj hq
    exact ⟨B, C, b1, c1, p, b2, c2⟩
  · obtain ⟨B, b1, b2⟩ := get e3 hi hp
    obtain ⟨C, c1, c2⟩ := get e2 hj hq
    exact ⟨B, C, b1, c1, p, b2, c2⟩

/-- The unit box moved by `k`. -/
def unitBox (k : ℚ) : Box := ⟨⟨k, 0, 0⟩, ⟨k + 1, 1, 1⟩⟩

-- three faces against two; the middle left face is already tagged; touching boxes count
example : ∃ r, Candidates.Returns (fun _ l => l.reverse) 2 3 8 (fun _ => ⟨none, .null, .null⟩) (0, unitBox 0)
    [unitBox 0, unitBox 1, unitBox 4] [unitBox 1, unitBox 5] [unitBox 0, unitBox 1, unitBox 4] [unitBox 1, unitBox 5] [.unknown, .coplanar, .unknown] [.unknown, .unknown] r ∧
    r.exc = none ∧ (0, 0) ∈ r.acc ∧ (2, 1) ∈ r.acc ∧ (1, 0) ∉ r.acc ∧ (0, 1) ∉ r.acc := by
  obtain ⟨mem, hm⟩ := Prog.exec_complete (construct boxOps (fun _ l => l.reverse) 2 (leavesOf [unitBox 1, unitBox 5]).length) (initial (fun _ => ⟨none, .null, .null⟩) (leavesOf [unitBox 1, unitBox 5]) (0, unitBox 0))
  obtain ⟨r, hr⟩ := C15_has_result (loop false mem 2 3 [.unknown, .unknown] [.unknown, .coplanar, .unknown] [unitBox 0, unitBox 1, unitBox 4]) 3 8 []
  have h : Candidates.Returns (fun _ l => l.reverse) 2 3 8 (fun _ => ⟨none, .null, .null⟩) (0, unitBox 0)
    [unitBox 0, unitBox 1, unitBox 4] [unitBox 1, unitBox 5] [unitBox 0, unitBox 1, unitBox 4] [unitBox 1, unitBox 5] [.unknown, .coplanar, .unknown] [.unknown, .unknown] r := ⟨mem, hm, hr⟩
  have ne : ∀ k, ∃ p, (unitBox k).Mem p := fun k => ⟨⟨k, 0, 0⟩, by simp [unitBox, Box.Mem]⟩
  obtain ⟨h1, -, h2⟩ := C32_pairs _ (fun _ l => List.reverse_perm l) 2 3 8 (by decide) _ _ _ _ _ _ _ _ rfl rfl rfl rfl (by
    intro b hb; simp at hb; rcases hb with hb | hb | hb | hb <;> (try rcases hb with rfl | rfl | rfl) <;> (try rcases hb with rfl | rfl) <;> exact ne _) h
  refine ⟨r, h, h1, (h2 0 0).2 ⟨rfl, rfl, _, _, rfl, rfl, ⟨1, 0, 0⟩, ?_⟩, (h2 2 1).2 ⟨rfl, rfl, _, _, rfl, rfl, ⟨5, 0, 0⟩, ?_⟩, ?_, ?_⟩
  · norm_num [unitBox, Box.Mem]
  · norm_num [unitBox, Box.Mem]
  · rw [h2]; rintro ⟨h, -⟩; cases h
  · rw [h2]
    rintro ⟨-, -, B, C, hB, hC, p, p1, p2⟩
    simp at hB hC
    subst hB; subst hC
    simp only [unitBox, Box.Mem] at p1 p2
    linarith [p1.2.1, p2.1]

end Kigumi.Props
