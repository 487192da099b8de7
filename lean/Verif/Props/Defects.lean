import Verif.Proofs.DefectsLink
import Verif.Props.Candidates
import Mathlib.Tactic.LinearCombination
import Mathlib.Tactic.FieldSimp

/-! # C54 to C58: defects of a soup -/
namespace Kigumi.Props
open Kigumi Outcome Defects Spec.Defects PointList

section
variable {P : Type} [DecidableEq P]

/-- The points after merging are pairwise distinct and are the points of the soup; face number `i` keeps its number and the coordinates of its corners. -/
theorem C54_merge (pts : List P) (faces : List (Tri Nat)) (hf : ∀ f ∈ faces, ∀ v ∈ f.toList, v < pts.length) :
    ∃ pts' faces', merge pts faces = ok (pts', faces') ∧ pts'.Nodup ∧ (∀ p, p ∈ pts' ↔ p ∈ pts) ∧ faces'.length = faces.length ∧
      ∀ (i : Nat) (f g : Tri Nat), faces[i]? = some f → faces'[i]? = some g → g.map (fun v => pts'[v]?) = f.map (fun v => pts[v]?) := by
  have hg : Good ((PointList.fresh : PointList P).startCheck) := good_start
  obtain ⟨a1, a2, a3, a5, a6⟩ := insertAll_good pts hg
  have a4 : ∀ (i : Nat) (p : P) (id : Nat), pts[i]? = some p → ((PointList.fresh : PointList P).startCheck.insertAll pts).2[i]? = some id →
      ((PointList.fresh : PointList P).startCheck.insertAll pts).1.points[id]? = some p := by
    intro i p id h1 h2
    obtain ⟨id', e1, e2, -⟩ := a6 i p h1
    rw [h2] at e1; cases e1; exact e2
  have hm := mergePoints_eq pts _ [] hg
  have hfp : (PointList.fresh : PointList P).startCheck.points = [] := rfl
  rw [hfp] at hm
  generalize hA : (PointList.fresh : PointList P).startCheck.insertAll pts = A at *
  simp only [List.nil_append] at hm
  have hb : ∀ f ∈ faces, f.a < A.2.length ∧ f.b < A.2.length ∧ f.c < A.2.length := by
    intro f hfm
    rw [a3]
    exact ⟨hf f hfm _ (by simp [Tri.toList]), hf f hfm _ (by simp [Tri.toList]), hf f hfm _ (by simp [Tri.toList])⟩
  refine ⟨A.1.points, faces.map (fun f => f.map (fun v => (A.2[v]?).getD 0)), ?_, a1.nodup, ?_, by simp, ?_⟩
  · unfold merge
    rw [hm]
    simp only
    rw [mergeFaces_ok A.2 faces [] hb]
    simp
  · intro p
    rw [a5, hfp]; simp
  · intro i f g h1 h2
    rw [List.getElem?_map, h1] at h2
    cases h2
    obtain ⟨b1, b2, b3⟩ := hb f (List.mem_of_getElem? h1)
    have key : ∀ v, v < A.2.length → A.1.points[(A.2[v]?).getD 0]? = pts[v]? := by
      intro v hv
      have hv' : v < pts.length := by rw [← a3]; exact hv
      have := a4 v pts[v] A.2[v] (List.getElem?_eq_getElem hv') (List.getElem?_eq_getElem hv)
      rw [List.getElem?_eq_getElem hv, Option.getD_some, this, List.getElem?_eq_getElem hv']
    simp only [Tri.map, key _ b1, key _ b2, key _ b3]

/-- The first and third points coincide; a face using both becomes degenerate. -/
example : merge [10, 20, 10, 30] [⟨0, 1, 3⟩, ⟨0, 2, 3⟩] = ok ([10, 20, 30], [⟨0, 1, 2⟩, ⟨0, 0, 2⟩]) := by decide +kernel

end

/-- Exactly the vertices used by no face are reported, each once. -/
theorem C55_isolated (n : Nat) (faces : List (Tri Nat)) (hf : ∀ f ∈ faces, ∀ v ∈ f.toList, v < n) :
    ∃ vis, isolated n faces = ok vis ∧ vis.Nodup ∧ ∀ v, v ∈ vis ↔ v < n ∧ ∀ f ∈ faces, v ∉ f.toList := by
  obtain ⟨u, h1, h2, h3⟩ := usedLoop_ok faces (List.replicate n false) (by simpa using hf)
  rw [List.length_replicate] at h2
  refine ⟨_, by simp only [isolated, h1, ok_bind]; exact unusedLoop_ok u (List.range n) [] (by intro v hv; rw [h2]; simpa using hv), ?_, ?_⟩
  · rw [List.nil_append]; exact List.nodup_range.filter _
  · intro v
    rw [List.nil_append, List.mem_filter, List.mem_range]
    have e : (List.replicate n false)[v]? ≠ some true := by
      rw [List.getElem?_replicate]; split <;> simp
    simp only [ne_eq, decide_not, Bool.not_eq_eq_eq_not, Bool.not_true, decide_eq_false_iff_not, h3, e, false_or]
    push Not
    rfl

/-- An out-of-range index is reported by an exception. -/
theorem C55_bad_index (n : Nat) (f : Tri Nat) (fs : List (Tri Nat)) (h : ¬ f.a < n) : isolated n (f :: fs) = exn "out_of_range" := by
  simp [isolated, usedLoop, markUsed, Tri.toList, h]

example : isolated 5 [⟨0, 1, 3⟩] = ok [2, 4] := by decide

/-- Each defect list contains exactly the edges of its class, once each, whatever the order in which the hash map is iterated. -/
theorem C56_lists (faces : List (Tri Nat)) (order : Counts) (hp : order.Perm (collect faces [])) :
    ((oneWay 1 (collect faces []) order).Nodup ∧ ∀ v w, (v, w) ∈ oneWay 1 (collect faces []) order ↔ Boundary faces v w) ∧
    ((oneWay 2 (collect faces []) order).Nodup ∧ ∀ v w, (v, w) ∈ oneWay 2 (collect faces []) order ↔ Inconsistent faces v w) ∧
    ((nonManifoldEdges (collect faces []) order).Nodup ∧ ∀ v w, (v, w) ∈ nonManifoldEdges (collect faces []) order ↔ NonManifold faces v w) := by
  refine ⟨?_, oneWay_spec faces hp 2 (by decide), nonManifold_spec faces hp⟩
  obtain ⟨h1, h2⟩ := oneWay_spec faces hp 1 (by decide)
  refine ⟨h1, fun v w => ?_⟩
  rw [h2]
  unfold Boundary
  omega

/-- Every edge of the proper faces is in exactly one of the four classes, and the classes contain only edges. -/
theorem C56_partition (faces : List (Tri Nat)) (v w : Nat) :
    (IsEdge faces v w ↔ Regular faces v w ∨ Boundary faces v w ∨ Inconsistent faces v w ∨ NonManifold faces v w) ∧
    ¬ (Regular faces v w ∧ Boundary faces v w) ∧ ¬ (Regular faces v w ∧ Inconsistent faces v w) ∧ ¬ (Regular faces v w ∧ NonManifold faces v w) ∧
    ¬ (Boundary faces v w ∧ Inconsistent faces v w) ∧ ¬ (Boundary faces v w ∧ NonManifold faces v w) ∧ ¬ (Inconsistent faces v w ∧ NonManifold faces v w) := by
  unfold IsEdge Regular Boundary Inconsistent NonManifold
  refine ⟨?_, ?_, ?_, ?_, ?_, ?_, ?_⟩ <;> omega

/-- The edges are the sides of the faces with three different vertices. -/
theorem C56_edges (faces : List (Tri Nat)) (v w : Nat) : IsEdge faces v w ↔ v < w ∧ ∃ f ∈ faces, Proper3 f ∧ ((v, w) ∈ sides f ∨ (w, v) ∈ sides f) := by
  have key : ∀ v w, 0 < uses faces v w ↔ ∃ f ∈ faces, Proper3 f ∧ (v, w) ∈ sides f := by
    intro v w
    unfold uses
    rw [List.count_pos_iff, List.mem_flatMap]
    simp only [List.mem_filter, decide_eq_true_eq, and_assoc]
  unfold IsEdge
  have : 0 < uses faces v w + uses faces w v ↔ 0 < uses faces v w ∨ 0 < uses faces w v := by omega
  rw [this, key, key]
  constructor
  · rintro ⟨h, ⟨f, a, b, c⟩ | ⟨f, a, b, c⟩⟩
    · exact ⟨h, f, a, b, Or.inl c⟩
    · exact ⟨h, f, a, b, Or.inr c⟩
  · rintro ⟨h, f, a, b, c | c⟩
    · exact ⟨h, Or.inl ⟨f, a, b, c⟩⟩
    · exact ⟨h, Or.inr ⟨f, a, b, c⟩⟩

/-- Two faces over the same directed side, a third on its own, a degenerate one: hypotheses can be met by a reversed iteration. -/
example : let fs : List (Tri Nat) := [⟨0, 1, 2⟩, ⟨0, 1, 3⟩, ⟨2, 1, 4⟩, ⟨5, 5, 6⟩]
    oneWay 2 (collect fs []) (collect fs []).reverse = [(0, 1)] ∧ nonManifoldEdges (collect fs []) (collect fs []).reverse = [] ∧
    oneWay 1 (collect fs []) (collect fs []).reverse = [(2, 4), (1, 4), (0, 3), (1, 3), (0, 2)] := by decide +kernel
example : nonManifoldEdges (collect [⟨0, 1, 2⟩, ⟨1, 0, 3⟩, ⟨0, 1, 4⟩] []) (collect [⟨0, 1, 2⟩, ⟨1, 0, 3⟩, ⟨0, 1, 4⟩] []) = [(0, 1)] := by decide +kernel

/-- A vertex is reported exactly when it has incident proper faces and its link is not a connected simple graph without a vertex of more than two edges; the search ends, never throws, and no vertex is reported twice.  (Fewer than 2^32 faces: the graph counts edges in `unsigned`.) -/
theorem C57_nonManifoldVertices (n : Nat) (faces : List (Tri Nat)) (hf : ∀ f ∈ faces, ∀ v ∈ f.toList, v < n) (hlen : faces.length < 4294967296) :
    ∃ fuel0 vis, (∀ fuel, fuel0 ≤ fuel → nonManifoldVertices fuel n faces = ok vis) ∧ vis.Nodup ∧
      ∀ v, v ∈ vis ↔ link faces v ≠ [] ∧ ¬ PathOrCycle (link faces v) := by
  obtain ⟨vf, h1, h2, h3⟩ := vfLoop_ok faces 0 (List.replicate n []) (by simpa using hf)
  rw [List.length_replicate] at h2
  have e : ∀ w, (List.replicate n ([] : List Nat)).getD w [] = [] := by
    intro w; rw [List.getD_eq_getElem?_getD, List.getElem?_replicate]; split <;> simp
  obtain ⟨fuel0, r, r1, r2, r3⟩ := badLoop_ok faces vf (fun v => link faces v ≠ [] ∧ ¬ PathOrCycle (link faces v)) (List.range n) (by
    intro v hv
    exact vertexBad_ok faces vf v (by rw [h2]; simpa using hv) (by rw [h3, e, List.nil_append]) hlen)
  refine ⟨fuel0, r, fun fuel hfu => ?_, r2.nodup List.nodup_range, fun v => ?_⟩
  · simp only [nonManifoldVertices, h1, ok_bind]
    rw [r1 fuel [] hfu, List.nil_append]
  · by_cases hv : v < n
    · exact r3 v (by simpa using hv)
    · constructor
      · intro h; exact absurd (r2.subset h) (by simpa using hv)
      · rintro ⟨h, -⟩
        exfalso
        apply h
        unfold link
        rw [List.flatMap_eq_nil_iff]
        intro f hfm
        have := hf f (List.mem_filter.1 hfm).1
        simp only [Tri.toList, List.mem_cons, List.not_mem_nil, or_false] at this
        have ha := this f.a (Or.inl rfl)
        have hb := this f.b (Or.inr (Or.inl rfl))
        have hc := this f.c (Or.inr (Or.inr rfl))
        unfold oppositeSide
        rw [if_neg (by omega), if_neg (by omega), if_neg (by omega)]

/-- Two fans touching at vertex 0. -/
example : nonManifoldVertices 10 5 [⟨0, 1, 2⟩, ⟨0, 3, 4⟩] = ok [0] := by decide +kernel
/-- A closed fan around vertex 0. -/
example : nonManifoldVertices 30 4 [⟨0, 1, 2⟩, ⟨0, 2, 3⟩, ⟨0, 3, 1⟩] = ok [] := by decide +kernel

/-- `collinear` decides whether the points are on a line. -/
theorem collinear_iff (a b c : Geo.P3) : collinear a b c = true ↔ Collinear a b c := by
  obtain ⟨ax, ay, az⟩ := a
  obtain ⟨bx, by', bz⟩ := b
  obtain ⟨cx, cy, cz⟩ := c
  unfold collinear
  rw [decide_eq_true_eq]
  simp only [Geo.cross, Geo.sub, Spec.P3.mk.injEq]
  constructor
  · rintro ⟨h1, h2, h3⟩
    by_cases hx : bx - ax = 0
    · by_cases hy : by' - ay = 0
      · by_cases hz : bz - az = 0
        · refine ⟨⟨ax, ay, az⟩, ⟨cx - ax, cy - ay, cz - az⟩, ?_⟩
          intro q hq
          simp only [List.mem_cons, List.not_mem_nil, or_false] at hq
          rcases hq with rfl | rfl | rfl
          · exact ⟨0, by simp⟩
          · refine ⟨0, ?_⟩; simp only [Spec.P3.mk.injEq]; refine ⟨?_, ?_, ?_⟩ <;> linarith
          · exact ⟨1, by simp⟩
        · refine ⟨⟨ax, ay, az⟩, ⟨bx - ax, by' - ay, bz - az⟩, ?_⟩
          intro q hq
          simp only [List.mem_cons, List.not_mem_nil, or_false] at hq
          rcases hq with rfl | rfl | rfl
          · exact ⟨0, by simp⟩
          · exact ⟨1, by simp⟩
          · refine ⟨(cz - az) / (bz - az), ?_⟩
            simp only [Spec.P3.mk.injEq]
            refine ⟨?_, ?_, ?_⟩ <;> field_simp <;> linarith
      · refine ⟨⟨ax, ay, az⟩, ⟨bx - ax, by' - ay, bz - az⟩, ?_⟩
        intro q hq
        simp only [List.mem_cons, List.not_mem_nil, or_false] at hq
        rcases hq with rfl | rfl | rfl
        · exact ⟨0, by simp⟩
        · exact ⟨1, by simp⟩
        · refine ⟨(cy - ay) / (by' - ay), ?_⟩
          simp only [Spec.P3.mk.injEq]
          refine ⟨?_, ?_, ?_⟩ <;> field_simp <;> linarith
    · refine ⟨⟨ax, ay, az⟩, ⟨bx - ax, by' - ay, bz - az⟩, ?_⟩
      intro q hq
      simp only [List.mem_cons, List.not_mem_nil, or_false] at hq
      rcases hq with rfl | rfl | rfl
      · exact ⟨0, by simp⟩
      · exact ⟨1, by simp⟩
      · refine ⟨(cx - ax) / (bx - ax), ?_⟩
        simp only [Spec.P3.mk.injEq]
        refine ⟨?_, ?_, ?_⟩ <;> field_simp <;> linarith
  · rintro ⟨p, d, h⟩
    obtain ⟨s, hs⟩ := h _ (by simp : (⟨ax, ay, az⟩ : Spec.P3) ∈ _)
    obtain ⟨t, ht⟩ := h ⟨bx, by', bz⟩ (by simp)
    obtain ⟨u, hu⟩ := h ⟨cx, cy, cz⟩ (by simp)
    simp only [Spec.P3.mk.injEq] at hs ht hu
    obtain ⟨rfl, rfl, rfl⟩ := hs
    obtain ⟨rfl, rfl, rfl⟩ := ht
    obtain ⟨rfl, rfl, rfl⟩ := hu
    refine ⟨by ring, by ring, by ring⟩

/-- Exactly the faces with a repeated vertex, once each. -/
theorem C58_trivial (faces : List (Tri Nat)) : (trivialLoop 0 faces []).Nodup ∧
    ∀ i, i ∈ trivialLoop 0 faces [] ↔ ∃ f, faces[i]? = some f ∧ ¬ Proper3 f := by
  rw [trivialLoop_eq]
  have e : (fun x => 0 + x) = (id : Nat → Nat) := by funext x; simp
  rw [e, List.map_id, List.nil_append]
  refine ⟨List.nodup_range.filter _, fun i => ?_⟩
  rw [List.mem_filter, List.mem_range]
  constructor
  · rintro ⟨h, h'⟩
    rw [List.getElem?_eq_getElem h] at h'
    refine ⟨_, List.getElem?_eq_getElem h, ?_⟩
    rw [← repeats_iff]; simpa using h'
  · rintro ⟨f, h, h'⟩
    refine ⟨(List.getElem?_eq_some_iff.1 h).1, ?_⟩
    rw [h]
    rw [← repeats_iff] at h'; simpa using h'

/-- Every execution of the parallel loop over a soup in range returns normally; the faces listed are exactly those with three different vertices on a line, once each. -/
theorem C58_nonTrivial (pts : List Geo.P3) (faces : List (Tri Nat)) (hf : ∀ f ∈ faces, ∀ v ∈ f.toList, v < pts.length) {configured hardware : Nat} (hc : 1 ≤ configured)
    {r : ParallelDo.Result String (List Nat)} (h : ParallelDo.Returns (degenerateLoop pts faces) configured hardware [] r) :
    r.exc = none ∧ r.acc.Nodup ∧ ∀ i, i ∈ r.acc ↔ ∃ f a b c, faces[i]? = some f ∧ Proper3 f ∧ pts[f.a]? = some a ∧ pts[f.b]? = some b ∧ pts[f.c]? = some c ∧ Collinear a b c := by
  let bad : Nat → Bool := fun i => match faces[i]? with
    | none => false
    | some f => if repeats f then false else match pts[f.a]?, pts[f.b]?, pts[f.c]? with
      | some a, some b, some c => collinear a b c
      | _, _, _ => false
  have hbad : ∀ i, bad i = true ↔ ∃ f a b c, faces[i]? = some f ∧ Proper3 f ∧ pts[f.a]? = some a ∧ pts[f.b]? = some b ∧ pts[f.c]? = some c ∧ Collinear a b c := by
    intro i
    simp only [bad]
    cases hi : faces[i]? with
    | none => simp
    | some f =>
      have hm := List.mem_of_getElem? hi
      have ha := hf f hm f.a (by simp [Tri.toList])
      have hb := hf f hm f.b (by simp [Tri.toList])
      have hc := hf f hm f.c (by simp [Tri.toList])
      simp only [List.getElem?_eq_getElem ha, List.getElem?_eq_getElem hb, List.getElem?_eq_getElem hc]
      cases hr : repeats f with
      | true =>
        simp only [if_true, Bool.false_eq_true, false_iff]
        rintro ⟨f', a, b, c, e, hp, -⟩
        cases e
        rw [← repeats_iff, hr] at hp; cases hp
      | false =>
        simp only [Bool.false_eq_true, if_false, collinear_iff]
        constructor
        · intro h; exact ⟨f, _, _, _, rfl, (repeats_iff f).1 hr, List.getElem?_eq_getElem ha, List.getElem?_eq_getElem hb, List.getElem?_eq_getElem hc, h⟩
        · rintro ⟨f', a, b, c, e, -, h1, h2, h3, h⟩
          cases e
          rw [List.getElem?_eq_getElem ha] at h1; rw [List.getElem?_eq_getElem hb] at h2; rw [List.getElem?_eq_getElem hc] at h3
          cases h1; cases h2; cases h3; exact h
  obtain ⟨h1, h2⟩ := Candidates.collect_of (degenerateLoop pts faces) (fun i => if bad i then [i] else []) rfl (by
    intro i s hi
    have hi : i < faces.length := hi
    have hm : faces[i] ∈ faces := List.getElem_mem hi
    have ha := hf _ hm faces[i].a (by simp [Tri.toList])
    have hb := hf _ hm faces[i].b (by simp [Tri.toList])
    have hc := hf _ hm faces[i].c (by simp [Tri.toList])
    simp only [degenerateLoop, degenerateBody, bad, List.getElem?_eq_getElem hi, List.getElem?_eq_getElem ha, List.getElem?_eq_getElem hb, List.getElem?_eq_getElem hc]
    cases repeats faces[i] <;> simp
    cases collinear pts[faces[i].a] pts[faces[i].b] pts[faces[i].c] <;> simp) rfl (by
    intro g s
    simp only [degenerateLoop]
    cases g <;> simp) hc h
  have e : (List.range (degenerateLoop pts faces).size).flatMap (fun i => if bad i then [i] else []) = (List.range faces.length).filter bad := by
    show (List.range faces.length).flatMap _ = _
    induction List.range faces.length with
    | nil => rfl
    | cons i l ih => rw [List.flatMap_cons, List.filter_cons, ih]; cases bad i <;> simp
  rw [e, List.nil_append] at h2
  refine ⟨h1, h2.nodup_iff.2 (List.nodup_range.filter _), fun i => ?_⟩
  rw [h2.mem_iff, List.mem_filter, hbad, List.mem_range]
  constructor
  · exact fun h => h.2
  · rintro h
    obtain ⟨f, a, b, c, h0, -⟩ := id h
    exact ⟨(List.getElem?_eq_some_iff.1 h0).1, h⟩

/-- On the merged soup the two lists are disjoint and together are the faces whose corners are on a line in the input: a face is trivially degenerate exactly if two of its corners coincide. -/
theorem C58_corners (pts : List Geo.P3) (faces : List (Tri Nat)) (hf : ∀ f ∈ faces, ∀ v ∈ f.toList, v < pts.length) {pts' : List Geo.P3} {faces' : List (Tri Nat)} (hm : merge pts faces = ok (pts', faces')) (i : Nat) :
    i ∈ trivialLoop 0 faces' [] ↔ ∃ f a b c, faces[i]? = some f ∧ pts[f.a]? = some a ∧ pts[f.b]? = some b ∧ pts[f.c]? = some c ∧ (a = b ∨ b = c ∨ a = c) := by
  obtain ⟨p', f', h0, h1, h2, h3, h4⟩ := C54_merge pts faces hf
  rw [hm] at h0
  cases h0
  rw [(C58_trivial faces').2]
  have aux : ∀ (f g : Tri Nat), faces[i]? = some f → faces'[i]? = some g → ∃ a b c, pts[f.a]? = some a ∧ pts[f.b]? = some b ∧ pts[f.c]? = some c ∧ (Proper3 g ↔ a ≠ b ∧ b ≠ c ∧ a ≠ c) := by
    intro f g hif hig
    have hmm := List.mem_of_getElem? hif
    have ha := hf _ hmm f.a (by simp [Tri.toList])
    have hb := hf _ hmm f.b (by simp [Tri.toList])
    have hc := hf _ hmm f.c (by simp [Tri.toList])
    have key := h4 i f g hif hig
    simp only [Tri.map, Tri.mk.injEq, List.getElem?_eq_getElem ha, List.getElem?_eq_getElem hb, List.getElem?_eq_getElem hc] at key
    obtain ⟨k1, k2, k3⟩ := key
    refine ⟨_, _, _, List.getElem?_eq_getElem ha, List.getElem?_eq_getElem hb, List.getElem?_eq_getElem hc, ?_⟩
    have inj : ∀ (x y : Nat) (p q : Geo.P3), pts'[x]? = some p → pts'[y]? = some q → (x = y ↔ p = q) := by
      intro x y p q hx hy
      constructor
      · rintro rfl; rw [hx] at hy; exact Option.some.inj hy
      · rintro rfl
        obtain ⟨lx, ex⟩ := List.getElem?_eq_some_iff.1 hx
        obtain ⟨ly, ey⟩ := List.getElem?_eq_some_iff.1 hy
        exact (List.Nodup.getElem_inj_iff h1).1 (ex.trans ey.symm)
    unfold Proper3
    rw [ne_eq, ne_eq, ne_eq, inj _ _ _ _ k1 k2, inj _ _ _ _ k2 k3, inj _ _ _ _ k1 k3]
  constructor
  · rintro ⟨g, hig, hng⟩
    have hl : i < faces.length := by rw [← h3]; exact (List.getElem?_eq_some_iff.1 hig).1
    obtain ⟨a, b, c, e1, e2, e3, e4⟩ := aux _ g (List.getElem?_eq_getElem hl) hig
    refine ⟨_, a, b, c, List.getElem?_eq_getElem hl, e1, e2, e3, ?_⟩
    rw [e4] at hng
    by_contra hcon
    push Not at hcon
    exact hng hcon
  · rintro ⟨f, a, b, c, hif, e1, e2, e3, he⟩
    have hl : i < faces'.length := by rw [h3]; exact (List.getElem?_eq_some_iff.1 hif).1
    obtain ⟨a', b', c', e1', e2', e3', e4⟩ := aux f _ hif (List.getElem?_eq_getElem hl)
    rw [e1] at e1'; rw [e2] at e2'; rw [e3] at e3'
    cases e1'; cases e2'; cases e3'
    refine ⟨_, List.getElem?_eq_getElem hl, ?_⟩
    rw [e4]
    rintro ⟨n1, n2, n3⟩
    rcases he with he | he | he
    · exact n1 he
    · exact n2 he
    · exact n3 he

example : trivialLoop 0 [⟨0, 1, 2⟩, ⟨3, 1, 3⟩, ⟨4, 4, 4⟩] [] = [1, 2] := by decide
example : degenerateBody [⟨0, 0, 0⟩, ⟨1, 1, 0⟩, ⟨3, 3, 0⟩, ⟨0, 1, 0⟩] [⟨0, 1, 3⟩, ⟨0, 1, 2⟩] 1 [] = .ok [1] ∧
    degenerateBody [⟨0, 0, 0⟩, ⟨1, 1, 0⟩, ⟨3, 3, 0⟩, ⟨0, 1, 0⟩] [⟨0, 1, 3⟩, ⟨0, 1, 2⟩] 0 [] = .ok [] := by
  constructor <;> simp [degenerateBody, repeats, collinear, Geo.cross, Geo.sub] <;> norm_num

end Kigumi.Props
