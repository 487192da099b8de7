import Verif.Model.SideTree
import Verif.Props.Candidates
import Verif.Props.Side
import Verif.Props.Ties

/-! # C83: the side of a point, with the tree -/
namespace Kigumi.Props
open Kigumi Outcome Geo Spec.Triangles Spec.Side Side AABB
open Kigumi.Spec (Box HasCorners onSets)

variable {D : Type}

/-- What is assumed of the tree: boxes around the triangles, a construction that permutes the leaves, and an exact test whether a ray meets a box (it is never asked about rays that are just a point). -/
structure RayIndex (I : Index) (ts : List (Tri P3)) : Prop where
  boxes : Encloses I.boxes ts
  arr : ∀ k l, (I.arr k l).Perm l
  meets : ∀ (b : Box) p q, I.meets b p q = true ↔ ∃ x, b.Mem x ∧ OnRay p q x

/-- **Queries with rays.** Whatever execution has built the tree, a query with a ray returns exactly the faces whose boxes meet the ray, each of them once. -/
theorem C83_query {I : Index} {ts : List (Tri P3)} (h : RayIndex I ts) {mem : Mem (Nat × Box) (Option Box)} (hm : I.Built mem) (p q : P3) :
    ∃ l, I.ask mem p q = ok l ∧ l.Nodup ∧ ∀ i, i ∈ l ↔ ∃ b x, I.boxes[i]? = some b ∧ b.Mem x ∧ OnRay p q x := by
  obtain ⟨ps, h1, -, -, h4⟩ := C20_query_exact I.ops (by
      rintro (- | b) (- | c) ⟨p, q⟩ hb
      · cases hb
      · cases hb
      · exact hb
      · obtain ⟨x, hx, hr⟩ := (h.meets b p q).1 hb
        exact (h.meets _ p q).2 ⟨x, Box.mem_join_left hx, hr⟩) (by
      rintro (- | b) (- | c) ⟨p, q⟩ hb
      · cases hb
      · exact hb
      · cases hb
      · obtain ⟨x, hx, hr⟩ := (h.meets c p q).1 hb
        exact (h.meets _ p q).2 ⟨x, Box.mem_join_right hx, hr⟩) I.arr h.arr I.limit I.nodes (Candidates.leavesOf I.boxes) I.dflt hm (p, q)
  rw [Candidates.leaves_len] at h1
  have h5 := h4.map Prod.fst
  rw [List.map_map] at h5
  refine ⟨ps.map fun i => (mem.leaves i).1, ?_, ?_, ?_⟩
  · unfold Index.ask; rw [h1]; rfl
  · exact h5.nodup_iff.2 ((List.filter_sublist.map Prod.fst).nodup (Candidates.leaves_nodup I.boxes))
  · intro i
    refine h5.mem_iff.trans ?_
    rw [List.mem_map]
    constructor
    · rintro ⟨⟨i', b⟩, hb, rfl⟩
      rw [List.mem_filter] at hb
      obtain ⟨x, hx, hr⟩ := (h.meets b p q).1 hb.2
      exact ⟨b, x, Candidates.mem_leaves.1 hb.1, hx, hr⟩
    · rintro ⟨b, x, hb, hx, hr⟩
      exact ⟨(i, b), List.mem_filter.2 ⟨Candidates.mem_leaves.2 hb, (h.meets b p q).2 ⟨x, hx, hr⟩⟩, rfl⟩

/-- What is assumed of CGAL's intersections of triangles and rays, and of `std::partial_sort`. -/
structure RayHits (ts : List (Tri P3)) (inter : P3 → P3 → P3 → P3 → P3 → Hit) (partialSort : List (ℚ × Nat) → List (ℚ × Nat)) : Prop where
  inter : ∀ t ∈ ts, ∀ p q, p ≠ q → (inter t.a t.b t.c p q).Describes (fun x => In t x ∧ OnRay p q x)
  perm : ∀ l, (partialSort l).Perm l
  sorted : ∀ l x y r, partialSort l = x :: y :: r → x.1 ≤ y.1 ∧ ∀ z ∈ r, y.1 ≤ z.1

/-- **The tree does what point location asks of it**, whatever execution has built it. -/
theorem C83_valid {I : Index} {ts : List (Tri P3)} (h : RayIndex I ts) {mem : Mem (Nat × Box) (Option Box)} (hm : I.Built mem) {inter : P3 → P3 → P3 → P3 → P3 → Hit} {partialSort : List (ℚ × Nat) → List (ℚ × Nat)}
    (hh : RayHits ts inter partialSort) : (I.env mem inter partialSort).Valid ts where
  inter := hh.inter
  leaves p q _ := by
    obtain ⟨l, h1, h2, h3⟩ := C83_query h hm p q
    refine ⟨l, h1, h2, fun i hi => ?_, fun i t x ht hx hr => (h3 i).2 ?_⟩
    · obtain ⟨b, x, hb, -⟩ := (h3 i).1 hi
      rw [← h.boxes.1]; exact (List.getElem?_eq_some_iff.1 hb).1
    · have hi : i < I.boxes.length := by rw [h.boxes.1]; exact (List.getElem?_eq_some_iff.1 ht).1
      obtain ⟨u, v, w, hs, e, hu, hv, hw⟩ := hx
      exact ⟨_, x, List.getElem?_eq_getElem hi, h.boxes.2 i t _ ht (List.getElem?_eq_getElem hi) x ⟨u, v, w, hu, hv, hw, hs, e⟩, hr⟩
  perm := hh.perm
  sorted := hh.sorted

/-- **The side of a point, with the tree.** For every soup that bounds a region and whose triangles do not overlap in areas, every execution that builds the tree and every point off the surface: if the call returns, the answer is right. -/
theorem C83_side {I : Index} {r : Region P3 D} {ts : List (Tri P3)} (hr : WithBoundary r ts) (h : RayIndex I ts) {mem : Mem (Nat × Box) (Option Box)} (hm : I.Built mem) {inter : P3 → P3 → P3 → P3 → P3 → Hit}
    {partialSort : List (ℚ × Nat) → List (ℚ × Nat)} (hh : RayHits ts inter partialSort) (hok : ∀ t ∈ ts, Proper t) {χ : P3 → Prop} (hb : Bounds ts χ) (hth : Thin ts) {p : P3} (hp : ¬ Surface ts p) {b : Bounded}
    (he : boundedSide (I.env mem inter partialSort) r p = ok b) : (b = .bounded ↔ χ p) ∧ (b = .unbounded ↔ ¬ χ p) :=
  C12_side hr (C83_valid h hm hh) hok hb hth hp he

/-- **The answer does not depend on the tree**: neither on the boxes, nor on the execution that built it, nor on how its leaves were arranged; exceptions included. -/
theorem C83_independent {I I' : Index} {r : Region P3 D} {ts : List (Tri P3)} (hr : WithBoundary r ts) (h : RayIndex I ts) (h' : RayIndex I' ts) {mem mem' : Mem (Nat × Box) (Option Box)} (hm : I.Built mem) (hm' : I'.Built mem')
    {inter inter' : P3 → P3 → P3 → P3 → P3 → Hit} {sort sort' : List (ℚ × Nat) → List (ℚ × Nat)} (hh : RayHits ts inter sort) (hh' : RayHits ts inter' sort') (p : P3) :
    boundedSide (I.env mem inter sort) r p = boundedSide (I'.env mem' inter' sort') r p :=
  C68_determined hr (C83_valid h hm hh) (C83_valid h' hm' hh') p

/-- The environment of the classification with trees. -/
def withTrees (E : Mix.Env) (I : Bool → Index) (mem : Bool → Mem (Nat × Box) (Option Box)) : Mix.Env := { E with side := fun c => (I c).env (mem c) (E.side c).inter (E.side c).partialSort }

/-- **Boolean operations, with the trees that the side of points is found with.** As C73 and C77, but what the classification is told about rays comes from trees that any execution may have built. -/
theorem C83_boolean {orig : Bool → List (Tri P3)} {χ : Bool → P3 → Prop} {a b : Region P3 D} (ha : IsSolid a (orig true) (χ true)) (hb : IsSolid b (orig false) (χ false)) {E : Corefine.Env} (hE : E.Valid orig)
    (hg : NoFourOnCircle orig) (hman : ManifoldWhereCoinciding orig) {E' : Mix.Env} (hE' : E'.Valid orig) {I : Bool → Index} (hI : ∀ c, RayIndex (I c) (orig c)) {mem : Bool → Mem (Nat × Box) (Option Box)}
    (hm : ∀ c, (I c).Built (mem c)) {bb : Builder P3 D} {w : Global.Warnings} (h : Mix.Built (withTrees E' I mem) (Corefine.Gives E) a b bb w) (op : Op) (pf : Bool) :
    w = .none ∧ ∃ r, bb.run op pf = ok r ∧ Denotes r (fun x => x ∈ onSets op {x | χ true x} {x | χ false x}) (fun x => Surface (orig true) x ∨ Surface (orig false) x) :=
  C73_boolean ha hb hE hg hman (E' := withTrees E' I mem) ⟨hE'.base, hE'.sort, fun c => C83_valid (hI c) (hm c) ⟨(hE'.side c).inter, (hE'.side c).perm, (hE'.side c).sorted⟩⟩ h op pf

/-! ## Such trees exist -/

/-- Where the ray reaches the slab between two planes. -/
def reach (lo hi a d : ℚ) : ℚ := if d = 0 then 0 else if 0 < d then (lo - a) / d else (hi - a) / d

/-- Whether the ray from `p` through `q` meets the box: it does if it is in the box where it has reached all slabs. -/
def slabs (b : Box) (p q : P3) : Bool :=
  let s := max (max 0 (reach b.lo.x b.hi.x p.x (q.x - p.x))) (max (reach b.lo.y b.hi.y p.y (q.y - p.y)) (reach b.lo.z b.hi.z p.z (q.z - p.z)))
  decide (b.lo.x ≤ p.x + s * (q.x - p.x) ∧ p.x + s * (q.x - p.x) ≤ b.hi.x ∧ b.lo.y ≤ p.y + s * (q.y - p.y) ∧ p.y + s * (q.y - p.y) ≤ b.hi.y ∧ b.lo.z ≤ p.z + s * (q.z - p.z) ∧ p.z + s * (q.z - p.z) ≤ b.hi.z)

theorem reach_le {lo hi a d s : ℚ} (hs : 0 ≤ s) (h1 : lo ≤ a + s * d) (h2 : a + s * d ≤ hi) : reach lo hi a d ≤ s := by
  unfold reach
  split
  · exact hs
  · rename_i h0
    split
    · rename_i hd; rw [div_le_iff₀ hd]; linarith
    · rename_i hd
      have hd' : d < 0 := lt_of_le_of_ne (not_lt.1 hd) h0
      rw [div_le_iff_of_neg hd']; linarith

theorem reach_in {lo hi a d s m : ℚ} (h1 : lo ≤ a + s * d) (h2 : a + s * d ≤ hi) (hm : reach lo hi a d ≤ m) (hms : m ≤ s) : lo ≤ a + m * d ∧ a + m * d ≤ hi := by
  unfold reach at hm
  split at hm
  · rename_i h0; subst h0; simp only [mul_zero, add_zero] at h1 h2 ⊢; exact ⟨h1, h2⟩
  · rename_i h0
    split at hm
    · rename_i hd; rw [div_le_iff₀ hd] at hm
      have := mul_le_mul_of_nonneg_right hms hd.le
      constructor <;> linarith
    · rename_i hd
      have hd' : d < 0 := lt_of_le_of_ne (not_lt.1 hd) h0
      rw [div_le_iff_of_neg hd'] at hm
      have := mul_le_mul_of_nonpos_right hms hd'.le
      constructor <;> linarith

theorem slabs_exact (b : Box) (p q : P3) : slabs b p q = true ↔ ∃ x, b.Mem x ∧ OnRay p q x := by
  unfold slabs
  simp only [decide_eq_true_eq]
  constructor
  · intro h
    refine ⟨_, ?_, _, le_trans (le_max_left _ (reach b.lo.x b.hi.x p.x (q.x - p.x))) (le_max_left _ (max (reach b.lo.y b.hi.y p.y (q.y - p.y)) (reach b.lo.z b.hi.z p.z (q.z - p.z)))), rfl⟩
    exact h
  · rintro ⟨x, ⟨h1, h2, h3, h4, h5, h6⟩, s, hs, rfl⟩
    have hm := max_le (max_le hs (reach_le hs h1 h2)) (max_le (reach_le hs h3 h4) (reach_le hs h5 h6))
    obtain ⟨k1, k2⟩ := reach_in h1 h2 (le_trans (le_max_right 0 _) (le_max_left _ _)) hm
    obtain ⟨k3, k4⟩ := reach_in h3 h4 (le_trans (le_max_left _ _) (le_max_right _ _)) hm
    obtain ⟨k5, k6⟩ := reach_in h5 h6 (le_trans (le_max_right _ _) (le_max_right _ _)) hm
    exact ⟨k1, k2, k3, k4, k5, k6⟩

/-- Smallest boxes, leaves in reverse order at every node, two threads. -/
def someIndex (ts : List (Tri P3)) : Index := ⟨ts.map Corefine.boxOf, fun _ l => l.reverse, 1, fun _ => ⟨none, .null, .null⟩, (0, ⟨⟨0, 0, 0⟩, ⟨0, 0, 0⟩⟩), slabs⟩

/-- **What is assumed of trees can be had**, and each tree can be built. -/
theorem C83_consistent (ts : List (Tri P3)) : (∃ I, RayIndex I ts) ∧ ∀ I, RayIndex I ts → ∃ mem, I.Built mem :=
  ⟨⟨someIndex ts, ⟨Corefine.boxOf_encloses ts, fun _ l => List.reverse_perm l, slabs_exact⟩⟩, fun _ _ => Prog.exec_complete _ _⟩

/-- The tree of a tetrahedron, as an execution without further threads leaves it. -/
def tetraMem : Mem (Nat × Box) (Option Box) := (construct (someIndex tetraFaces).ops (someIndex tetraFaces).arr 0 4).run (initial (someIndex tetraFaces).nodes (Candidates.leavesOf (someIndex tetraFaces).boxes) (someIndex tetraFaces).dflt)

-- a ray that meets the boxes of two faces only, and the sides of a few points
example : (someIndex tetraFaces).ask tetraMem ⟨-1, 1 / 2, 1 / 4⟩ ⟨0, 1 / 2, 1 / 4⟩ = ok [3, 0] := by decide +kernel
example : boundedSide ((someIndex tetraFaces).env tetraMem exactHit (exactEnv 4).partialSort) tetraSolid ⟨1 / 4, 1 / 4, 1 / 4⟩ = ok .bounded ∧
    boundedSide ((someIndex tetraFaces).env tetraMem exactHit (exactEnv 4).partialSort) tetraSolid ⟨1, 1, 1⟩ = ok .unbounded ∧
    boundedSide ((someIndex tetraFaces).env tetraMem exactHit (exactEnv 4).partialSort) tetraSolid ⟨1 / 2, 1 / 2, 0⟩ = ok .boundary := by decide +kernel

end Kigumi.Props
