import Verif.Model.FindDefects
import Verif.Proofs.Faults
import Verif.Props.Overlaps
import Verif.Props.Program

/-! # C91: the list of defects -/
namespace Kigumi.Props
open Kigumi Outcome Defects Spec.Defects
open Kigumi.Spec (HasCorners)
open Kigumi.Geo (P3)

/-- What is assumed of the environment, for a soup with the triangles `ts`. -/
structure _root_.Kigumi.Defects.Env.Valid (E : Defects.Env) (ts : List (Tri P3)) : Prop where
  arr : ∀ k l, (E.arr k l).Perm l
  configured : 1 ≤ E.configured
  treeBoxes : Encloses E.treeBoxes ts
  queryBoxes : Encloses E.queryBoxes ts

/-- The numbers are those of the defects of the triangles `ts` and of the vertices `ps`. -/
structure Faults (ps : List P3) (ts : List (Tri P3)) (c : Fin 8 → Nat) : Prop where
  isolated : Counted (c 0) (IsolatedAt ps ts)
  pinched : Counted (c 1) (PinchedAt ts)
  boundary : Counted (c 2) (BoundaryEdge ts)
  inconsistent : Counted (c 3) (InconsistentEdge ts)
  nonManifold : Counted (c 4) (NonManifoldEdge ts)
  collapsed : Counted (c 5) (Collapsed ts)
  flat : Counted (c 6) (Flat ts)
  overlapping : Counted (c 7) (OverlapsLater ts)

theorem corners_bound {pts : List P3} {faces : List (Tri Nat)} {ts : List (Tri P3)} (hc : HasCorners pts faces ts) : ∀ f ∈ faces, ∀ v ∈ f.toList, v < pts.length := by
  intro f hf v hv
  obtain ⟨t, -, a1, a2, a3⟩ := forall₂_mem_left hc hf
  simp only [Tri.toList, List.mem_cons, List.not_mem_nil, or_false] at hv
  rcases hv with rfl | rfl | rfl
  · exact (List.getElem?_eq_some_iff.1 a1).1
  · exact (List.getElem?_eq_some_iff.1 a2).1
  · exact (List.getElem?_eq_some_iff.1 a3).1

/-- Merging keeps the corners. -/
theorem merge_corners {pts : List P3} {faces : List (Tri Nat)} {ts : List (Tri P3)} (hc : HasCorners pts faces ts) :
    ∃ pts' faces', merge pts faces = ok (pts', faces') ∧ pts'.Nodup ∧ (∀ p, p ∈ pts' ↔ p ∈ pts) ∧ faces'.length = faces.length ∧ HasCorners pts' faces' ts := by
  have hl := hc.length_eq
  obtain ⟨pts', faces', m0, m1, m2, m3, m4⟩ := C54_merge pts faces (corners_bound hc)
  refine ⟨pts', faces', m0, m1, m2, m3, ?_⟩
  unfold HasCorners
  rw [List.forall₂_iff_get]
  refine ⟨by omega, fun i h1 h2 => ?_⟩
  have h0 : i < faces.length := by omega
  have a := (List.forall₂_iff_get.1 hc).2 i h0 h2
  have b := m4 i _ _ (List.getElem?_eq_getElem h0) (List.getElem?_eq_getElem h1)
  simp only [Tri.map, Tri.mk.injEq] at b
  simp only [List.get_eq_getElem] at a ⊢
  exact ⟨b.1.trans a.1, b.2.1.trans a.2.1, b.2.2.trans a.2.2⟩

theorem places_oneToOne {pts : List P3} (hn : pts.Nodup) : OneToOne (fun (v : Nat) p => pts[v]? = some p) where
  right h1 h2 := by rw [h1] at h2; exact Option.some.inj h2
  left {a a' b} h1 h2 := by
    obtain ⟨l1, e1⟩ := List.getElem?_eq_some_iff.1 h1
    obtain ⟨l2, e2⟩ := List.getElem?_eq_some_iff.1 h2
    exact (List.Nodup.getElem_inj_iff hn).1 (e1.trans e2.symm)

theorem andThen_ok {α β : Type} {x : Outcomes α} {f : α → Outcomes β} {o : Outcome β} (hx : ∀ o, x o → ∃ a, o = ok a) (h : Outcomes.andThen x f o) : ∃ a, x (ok a) ∧ f a o := by
  rcases h with ⟨a, h1, h2⟩ | ⟨e, h1, -⟩ | ⟨e, h1, -⟩
  · exact ⟨a, h1, h2⟩
  · obtain ⟨a, ha⟩ := hx _ h1; cases ha
  · obtain ⟨a, ha⟩ := hx _ h1; cases ha

/-- **C91.** For every soup with valid faces, fewer than 2^32: whatever threads and maps do, the constructor returns, and the lists have as many elements as the soup has defects of their kinds, where vertices are places and edges are pairs of places. -/
theorem C91_report {pts : List P3} {faces : List (Tri Nat)} {ts : List (Tri P3)} (hc : HasCorners pts faces ts) (hlen : faces.length < 2 ^ 32) {E : Defects.Env} (hE : E.Valid ts) {o : Outcome Report} (h : find E pts faces o) :
    ∃ r, o = ok r ∧ Faults pts ts r.counts := by
  obtain ⟨pts', faces', m0, m1, m2, m3, hc'⟩ := merge_corners hc
  have hb := corners_bound hc'
  have hR := places_oneToOne m1
  have hrel : List.Forall₂ (Corners fun (v : Nat) p => pts'[v]? = some p) faces' ts := hc'
  have hl' := hc'.length_eq
  have hlen' : faces'.length < 4294967296 := by omega
  have getR : ∀ v, v < pts'.length → ∃ p, pts'[v]? = some p := fun v hv => ⟨_, List.getElem?_eq_getElem hv⟩
  have getL : ∀ p, p ∈ pts' → ∃ v : Nat, pts'[v]? = some p := fun p hp => by
    obtain ⟨i, hi, rfl⟩ := List.getElem_of_mem hp
    exact ⟨i, List.getElem?_eq_getElem hi⟩
  have cornerL : ∀ t ∈ ts, ∀ p ∈ t.toList, ∃ v : Nat, pts'[v]? = some p := by
    intro t ht p hp
    obtain ⟨f, -, a1, a2, a3⟩ := forall₂_mem_right hc' ht
    simp only [Tri.toList, List.mem_cons, List.not_mem_nil, or_false] at hp
    rcases hp with rfl | rfl | rfl
    · exact ⟨_, a1⟩
    · exact ⟨_, a2⟩
    · exact ⟨_, a3⟩
  have faceAt : ∀ i : Nat, (∀ f, faces'[i]? = some f → ∃ t, ts[i]? = some t ∧ Corners (fun (v : Nat) p => pts'[v]? = some p) f t) ∧ ∀ t, ts[i]? = some t → ∃ f, faces'[i]? = some f ∧ Corners (fun (v : Nat) p => pts'[v]? = some p) f t := by
    intro i
    refine ⟨fun f hf => ?_, fun t ht => ?_⟩
    · obtain ⟨h1, rfl⟩ := List.getElem?_eq_some_iff.1 hf
      exact ⟨_, List.getElem?_eq_getElem (by omega), (List.forall₂_iff_get.1 hrel).2 i h1 (by omega)⟩
    · obtain ⟨h1, rfl⟩ := List.getElem?_eq_some_iff.1 ht
      exact ⟨_, List.getElem?_eq_getElem (by omega), (List.forall₂_iff_get.1 hrel).2 i (by omega) h1⟩
  obtain ⟨vis, i1, i2, i3⟩ := C55_isolated pts'.length faces' hb
  obtain ⟨fuel0, nm, n1, n2, n3⟩ := C57_nonManifoldVertices pts'.length faces' hb hlen'
  -- the constructor, step by step
  unfold find at h
  obtain ⟨m, hm, h⟩ := andThen_ok (fun o ho => ⟨_, ho.trans m0⟩) h
  have hm : ok m = merge pts faces := hm
  rw [m0] at hm
  obtain rfl : m = (pts', faces') := by injection hm
  obtain ⟨iso, hiso, h⟩ := andThen_ok (fun o ho => ⟨_, ho.trans i1⟩) h
  have hiso : ok iso = isolated pts'.length faces' := hiso
  rw [i1] at hiso
  obtain rfl : iso = vis := by injection hiso
  have nmAll : ∀ o, nonManifold pts'.length faces' o → o = ok nm := by
    rintro o ⟨k, hk⟩
    rw [← hk (max k fuel0) (le_max_left ..), n1 (max k fuel0) (le_max_right ..)]
  obtain ⟨nmv, hnmv, h⟩ := andThen_ok (fun o ho => ⟨_, nmAll o ho⟩) h
  obtain rfl : nmv = nm := by have := nmAll _ hnmv; injection this
  obtain ⟨order, ⟨_, horder, e⟩, h⟩ := andThen_ok (fun o ho => by obtain ⟨a, -, e⟩ := ho; exact ⟨a, e⟩) h
  obtain rfl := Outcome.ok.inj e
  obtain ⟨deg, ⟨_, hdeg, e⟩, h⟩ := andThen_ok (fun o ho => by
    obtain ⟨r, hr, e⟩ := ho
    rw [(C58_nonTrivial pts' faces' hb hE.configured hr).1] at e
    exact ⟨r, e⟩) h
  obtain ⟨d1, d2, d3⟩ := C58_nonTrivial pts' faces' hb hE.configured hdeg
  rw [d1] at e
  obtain rfl := Outcome.ok.inj e
  have overAll : ∀ r, Overlaps.Returns E.arr E.limit E.configured E.hardware E.nodes E.dflt pts' faces' (trivialLoop 0 faces' []) deg.acc E.treeBoxes E.queryBoxes r → _ :=
    fun r hr => C59_faces E.arr hE.arr E.limit E.configured E.hardware hE.configured E.nodes E.dflt pts' m1 faces' ts hc' E.treeBoxes E.queryBoxes hE.treeBoxes hE.queryBoxes hdeg hr
  obtain ⟨over, ⟨r, hr, e⟩, h⟩ := andThen_ok (fun o ho => by
    obtain ⟨r, hr, e⟩ := ho
    rw [(overAll r hr).1] at e
    exact ⟨_, e⟩) h
  obtain ⟨o1, o2, o3⟩ := overAll r hr
  rw [o1] at e
  obtain rfl := Outcome.ok.inj e
  refine ⟨_, h, ?_⟩
  obtain ⟨⟨b1, b2⟩, ⟨c1, c2⟩, f1, f2⟩ := C56_lists faces' order horder
  obtain ⟨t1, t2⟩ := C58_trivial faces'
  have usesL : ∀ v w, 0 < uses faces' v w → v ≠ w ∧ (∃ p, pts'[v]? = some p) ∧ ∃ q, pts'[w]? = some q := by
    intro v w hu
    obtain ⟨f, hf, h1, h2, h3⟩ := uses_corner hu
    exact ⟨h3, getR v (hb f hf v h1), getR w (hb f hf w h2)⟩
  have usesR : ∀ p q, 0 < uses ts p q → (∃ v : Nat, pts'[v]? = some p) ∧ ∃ w : Nat, pts'[w]? = some q := by
    intro p q hu
    obtain ⟨t, ht, h1, h2, -⟩ := uses_corner hu
    exact ⟨cornerL t ht p h1, cornerL t ht q h2⟩
  have eqU : ∀ (v w : Nat) p q, pts'[v]? = some p → pts'[w]? = some q → uses faces' v w = uses ts p q := fun v w p q h1 h2 => uses_related hR hrel h1 h2
  constructor
  · refine counted_related hR i2 i3 (fun v p hv => ?_) (fun v hv => getR v hv.1) (fun p hp => getL p ((m2 p).2 hp.1))
    unfold IsolatedAt
    rw [← m2]
    have hvl := (List.getElem?_eq_some_iff.1 hv).1
    constructor
    · rintro ⟨-, hn⟩
      refine ⟨List.mem_of_getElem? hv, fun t ht hp => ?_⟩
      obtain ⟨f, hf, a1, a2, a3⟩ := forall₂_mem_right hc' ht
      apply hn f hf
      simp only [Tri.toList, List.mem_cons, List.not_mem_nil, or_false] at hp ⊢
      exact hp.imp (hR.eq_iff hv a1).2 (Or.imp (hR.eq_iff hv a2).2 (hR.eq_iff hv a3).2)
    · rintro ⟨-, hn⟩
      refine ⟨hvl, fun f hf hp => ?_⟩
      obtain ⟨t, ht, a1, a2, a3⟩ := forall₂_mem_left hc' hf
      apply hn t ht
      simp only [Tri.toList, List.mem_cons, List.not_mem_nil, or_false] at hp ⊢
      exact hp.imp (hR.eq_iff hv a1).1 (Or.imp (hR.eq_iff hv a2).1 (hR.eq_iff hv a3).1)
  · refine counted_related hR n2 n3 (fun v p hv => ?_) (fun v hv => ?_) (fun p hp => ?_)
    · have hlk := link_related hR hrel hv
      unfold PinchedAt
      rw [← pathOrCycle_iff hR hlk, ne_eq, ne_eq, ← List.length_eq_zero_iff, ← List.length_eq_zero_iff, hlk.length_eq]
    · obtain ⟨f, hf, hvf⟩ := link_corner hv.1
      exact getR v (hb f hf v hvf)
    · obtain ⟨t, ht, hp⟩ := link_corner hp.1
      exact cornerL t ht p hp
  · refine counted_edges (S := fun v w => uses faces' v w + uses faces' w v = 1) hR b1 (fun v w => ?_) (fun v w p q h1 h2 => ?_) (fun v w hu => ?_) (fun p q hu => ?_)
    · rw [b2]
      unfold Boundary
      omega
    · rw [eqU v w p q h1 h2, eqU w v q p h2 h1]
    · rcases Nat.eq_zero_or_pos (uses faces' v w) with h0 | h0
      · obtain ⟨g1, g2, g3⟩ := usesL w v (by omega)
        exact ⟨fun e => g1 e.symm, g3, g2⟩
      · exact usesL v w h0
    · rcases Nat.eq_zero_or_pos (uses ts p q) with h0 | h0
      · exact (usesR q p (by omega)).symm
      · exact usesR p q h0
  · refine counted_edges (S := fun v w => uses faces' v w = 2 ∧ uses faces' w v = 0) hR c1 (fun v w => ?_) (fun v w p q h1 h2 => ?_) (fun v w hu => usesL v w (by omega)) (fun p q hu => usesR p q (by omega))
    · rw [c2]
      unfold Inconsistent
      omega
    · rw [eqU v w p q h1 h2, eqU w v q p h2 h1]
  · refine counted_edges (S := fun v w => 2 < uses faces' v w + uses faces' w v) hR f1 (fun v w => ?_) (fun v w p q h1 h2 => ?_) (fun v w hu => ?_) (fun p q hu => ?_)
    · rw [f2]
      unfold NonManifold
      omega
    · rw [eqU v w p q h1 h2, eqU w v q p h2 h1]
    · rcases Nat.eq_zero_or_pos (uses faces' v w) with h0 | h0
      · obtain ⟨g1, g2, g3⟩ := usesL w v (by omega)
        exact ⟨fun e => g1 e.symm, g3, g2⟩
      · exact usesL v w h0
    · rcases Nat.eq_zero_or_pos (uses ts p q) with h0 | h0
      · exact (usesR q p (by omega)).symm
      · exact usesR p q h0
  · refine counted_self t1 fun i => ?_
    rw [t2]
    unfold Collapsed
    constructor
    · rintro ⟨f, hf, hp⟩
      obtain ⟨t, ht, hct⟩ := (faceAt i).1 f hf
      exact ⟨t, ht, fun h' => hp ((hR.proper_iff hct).2 h')⟩
    · rintro ⟨t, ht, hp⟩
      obtain ⟨f, hf, hct⟩ := (faceAt i).2 t ht
      exact ⟨f, hf, fun h' => hp ((hR.proper_iff hct).1 h')⟩
  · refine counted_self d2 fun i => ?_
    rw [d3]
    unfold Flat
    constructor
    · rintro ⟨f, a, b, c, hf, hp, ha, hb', hcc, hcol⟩
      obtain ⟨t, ht, hct⟩ := (faceAt i).1 f hf
      refine ⟨t, ht, (hR.proper_iff hct).1 hp, ?_⟩
      rw [hR.right hct.1 ha, hR.right hct.2.1 hb', hR.right hct.2.2 hcc]
      exact hcol
    · rintro ⟨t, ht, hp, hcol⟩
      obtain ⟨f, hf, hct⟩ := (faceAt i).2 t ht
      exact ⟨f, t.a, t.b, t.c, hf, (hR.proper_iff hct).2 hp, hct.1, hct.2.1, hct.2.2, hcol⟩
  · refine counted_self o2 fun i => ?_
    rw [o3]
    unfold OverlapsLater Overlaps.Clash
    constructor
    · rintro ⟨j, hij, t, u, h⟩; exact ⟨j, t, u, hij, h⟩
    · rintro ⟨j, t, u, hij, h⟩; exact ⟨j, hij, t, u, h⟩

/-- There is an execution, whatever the soup. -/
theorem C91_returns {pts : List P3} {faces : List (Tri Nat)} {ts : List (Tri P3)} (hc : HasCorners pts faces ts) (hlen : faces.length < 2 ^ 32) {E : Defects.Env} (hE : E.Valid ts) : ∃ o, find E pts faces o := by
  obtain ⟨pts', faces', m0, m1, m2, m3, hc'⟩ := merge_corners hc
  have hb := corners_bound hc'
  obtain ⟨vis, i1, -⟩ := C55_isolated pts'.length faces' hb
  obtain ⟨fuel0, nm, n1, -⟩ := C57_nonManifoldVertices pts'.length faces' hb (by omega)
  obtain ⟨d, hd⟩ := C15_has_result (degenerateLoop pts' faces') E.configured E.hardware []
  have hd0 := (C58_nonTrivial pts' faces' hb hE.configured hd).1
  obtain ⟨mem, hmem⟩ := Prog.exec_complete (AABB.construct Candidates.boxOps E.arr E.limit (Candidates.leavesOf E.treeBoxes).length) (AABB.initial E.nodes (Candidates.leavesOf E.treeBoxes) E.dflt)
  obtain ⟨r, hr⟩ := C15_has_result (Overlaps.loop pts' faces' (trivialLoop 0 faces' []) d.acc mem E.queryBoxes) E.configured E.hardware []
  have hret : Overlaps.Returns E.arr E.limit E.configured E.hardware E.nodes E.dflt pts' faces' (trivialLoop 0 faces' []) d.acc E.treeBoxes E.queryBoxes r := ⟨mem, hmem, hr⟩
  have hr0 := (C59_faces E.arr hE.arr E.limit E.configured E.hardware hE.configured E.nodes E.dflt pts' m1 faces' ts hc' E.treeBoxes E.queryBoxes hE.treeBoxes hE.queryBoxes hd hret).1
  refine ⟨_, Or.inl ⟨(pts', faces'), m0.symm, Or.inl ⟨vis, i1.symm, Or.inl ⟨nm, ⟨fuel0, n1⟩, Or.inl ⟨_, ⟨_, List.Perm.refl _, rfl⟩, Or.inl ⟨d, ⟨d, hd, by rw [hd0]⟩, Or.inl ⟨r.acc, ⟨r, hret, by rw [hr0]⟩, rfl⟩⟩⟩⟩⟩⟩⟩

/-- There are environments that keep to the contracts: boxes can always be had. -/
theorem C91_environment (ts : List (Tri P3)) : ∃ E : Defects.Env, E.Valid ts := by
  have henc : Encloses (ts.map fun t => Candidates.faceBox ⟨⟨t.a, t.a⟩, ⟨t.b, t.b⟩, ⟨t.c, t.c⟩⟩) ts := by
    refine ⟨by simp, fun i t b ht hb p hp => ?_⟩
    rw [List.getElem?_map, ht] at hb
    obtain rfl := Option.some.inj hb
    refine C32_faceBox t _ ?_ ?_ ?_ p hp <;> simp [Spec.Box.Mem]
  exact ⟨⟨fun _ l => l, 1, 1, 1, fun _ => ⟨none, .null, .null⟩, (0, ⟨⟨0, 0, 0⟩, ⟨0, 0, 0⟩⟩), _, _⟩, fun _ l => List.Perm.refl l, le_refl 1, henc, henc⟩

/-! ## The command -/
open Kigumi.IO (Pt)
open Kigumi.Cli (World Name main)
open Kigumi.Program (place)

/-- The parameter of the program for `defects` is the constructor above (cli/defects_command.cc:62), on the places of the vertices. -/
def Searches {X B : Type} (E : Cli.Env X Pt Unit B) : Prop :=
  ∀ (s : Soup Pt Unit) ts, HasCorners (s.points.map place) s.faces ts →
    ∃ F o, Defects.Env.Valid F ts ∧ Defects.find F (s.points.map place) s.faces o ∧ E.defects s = o.bind fun r => ok r.counts

/-- **C91, the command.** If a mesh with valid faces, fewer than 2^32, is read, the program exits with status 0 and prints, for each kind of defect that is present, how many there are. -/
theorem C91_command {X B : Type} {E : Cli.Env X Pt Unit B} (hE : Searches E) {rest : List Name} {w : World X} {i : Name} {r : Region Pt Unit} (hp : E.parseIn rest = ok i) (hr : Cli.Reads E w.files i r)
    {ts : List (Tri P3)} (hc : HasCorners (r.boundary.points.map place) r.boundary.faces ts) (hlen : r.boundary.faces.length < 2 ^ 32) :
    ∃ c, Faults (r.boundary.points.map place) ts c ∧ main E ("defects".toList :: rest) w =
      ({ w with out := w.out ++ (defectLine (c 0) " isolated vertices\n" ++ defectLine (c 1) " non-manifold vertices\n" ++ defectLine (c 2) " boundary edges\n" ++
        defectLine (c 3) " inconsistent edges\n" ++ defectLine (c 4) " non-manifold edges\n" ++ defectLine (c 5) " trivial degenerate faces\n" ++
        defectLine (c 6) " non-trivial degenerate faces\n" ++ defectLine (c 7) " overlapping faces\n") }, ok 0) := by
  obtain ⟨F, o, hF, ho, he⟩ := hE r.boundary ts hc
  obtain ⟨rep, rfl, hf⟩ := C91_report hc hlen hF ho
  exact ⟨rep.counts, hf, (C69_defects E rest w _).2 ⟨i, r, rep.counts, hp, hr, he, rfl, rfl, rfl⟩⟩

theorem counted_unique {α : Type} {m n : Nat} {S : α → Prop} (h : Counted m S) (h' : Counted n S) : m = n := by
  obtain ⟨l, l1, rfl, l3⟩ := h
  obtain ⟨l', l1', rfl, l3'⟩ := h'
  exact ((List.perm_ext_iff_of_nodup l1 l1').2 fun x => (l3 x).trans (l3' x).symm).length_eq

/-- Numbers of defects are determined by the triangles and vertices. -/
theorem C91_unique {ps : List P3} {ts : List (Tri P3)} {c c' : Fin 8 → Nat} (h : Faults ps ts c) (h' : Faults ps ts c') : c = c' := by
  have k : ∀ {α : Type} {m n : Nat} {S : α → Prop}, Counted m S → Counted n S → m = n := counted_unique
  funext i
  fin_cases i
  exacts [k h.isolated h'.isolated, k h.pinched h'.pinched, k h.boundary h'.boundary, k h.inconsistent h'.inconsistent, k h.nonManifold h'.nonManifold, k h.collapsed h'.collapsed, k h.flat h'.flat, k h.overlapping h'.overlapping]

/-- A triangle, one that pierces it, one with two vertices in one place, stored as two vertices, and a vertex without faces. -/
def faulty : List P3 × List (Tri Nat) × List (Tri P3) :=
  ([⟨0, 0, 0⟩, ⟨4, 0, 0⟩, ⟨0, 4, 0⟩, ⟨1, 1, -1⟩, ⟨1, 1, 1⟩, ⟨5, 5, 0⟩, ⟨4, 0, 0⟩, ⟨9, 9, 9⟩], [⟨0, 1, 2⟩, ⟨3, 4, 5⟩, ⟨0, 6, 1⟩],
   [⟨⟨0, 0, 0⟩, ⟨4, 0, 0⟩, ⟨0, 4, 0⟩⟩, ⟨⟨1, 1, -1⟩, ⟨1, 1, 1⟩, ⟨5, 5, 0⟩⟩, ⟨⟨0, 0, 0⟩, ⟨4, 0, 0⟩, ⟨4, 0, 0⟩⟩])

/-- In every execution, 1 isolated vertex, 1 trivial degenerate face and 1 overlapping face are found. -/
example {E : Defects.Env} (hE : E.Valid faulty.2.2) {o : Outcome Report} (h : find E faulty.1 faulty.2.1 o) : ∃ r, o = ok r ∧ r.counts 0 = 1 ∧ r.counts 5 = 1 ∧ r.counts 7 = 1 := by
  obtain ⟨r, rfl, hf⟩ := C91_report (pts := faulty.1) (faces := faulty.2.1) (ts := faulty.2.2) (.cons ⟨rfl, rfl, rfl⟩ (.cons ⟨rfl, rfl, rfl⟩ (.cons ⟨rfl, rfl, rfl⟩ .nil))) (by decide) hE h
  refine ⟨r, rfl, counted_unique hf.isolated ⟨[⟨9, 9, 9⟩], by simp, rfl, fun x => ?_⟩, counted_unique hf.collapsed ⟨[2], by simp, rfl, fun i => ?_⟩, counted_unique hf.overlapping ⟨[0], by simp, rfl, fun i => ?_⟩⟩
  · unfold IsolatedAt faulty
    dsimp only
    constructor
    · intro h; rw [List.mem_singleton] at h; subst h; decide +kernel
    · rintro ⟨h1, h2⟩
      simp only [List.mem_cons, List.not_mem_nil, or_false] at h1
      rcases h1 with rfl | rfl | rfl | rfl | rfl | rfl | rfl | rfl
      all_goals first | exact List.mem_singleton_self _ | (exfalso; revert h2; decide +kernel)
  · unfold Collapsed
    constructor
    · intro h; rw [List.mem_singleton] at h; subst h; exact ⟨_, rfl, by decide +kernel⟩
    · rintro ⟨t, h1, h2⟩
      match i, h1 with
      | 0, h1 => obtain rfl := Option.some.inj h1; exact absurd (by decide +kernel) h2
      | 1, h1 => obtain rfl := Option.some.inj h1; exact absurd (by decide +kernel) h2
      | 2, _ => exact List.mem_singleton_self _
      | n + 3, h1 => cases h1
  · unfold OverlapsLater
    constructor
    · intro h; rw [List.mem_singleton] at h; subst h
      refine ⟨1, _, _, by decide, rfl, rfl, by rw [← collinear_iff]; decide +kernel, by rw [← collinear_iff]; decide +kernel, ?_⟩
      refine ⟨⟨1, 1, 0⟩, ⟨1 / 2, 1 / 4, 1 / 4, by norm_num, by norm_num [Spec.Triangles.combo], by norm_num, by norm_num, by norm_num⟩,
        ⟨1 / 2, 1 / 2, 0, by norm_num, by norm_num [Spec.Triangles.combo], by norm_num, by norm_num, by norm_num⟩, ?_⟩
      rintro ⟨u, v, ⟨h1, h2⟩, -⟩
      rcases h1 with rfl | rfl | rfl <;> revert h2 <;> decide
    · rintro ⟨j, t, u, hij, h1, h2, h3, h4, -⟩
      match i, h1 with
      | 0, _ => exact List.mem_singleton_self _
      | 1, _ =>
        match j, h2 with
        | 2, h2 => obtain rfl := Option.some.inj h2; exact absurd (by rw [← collinear_iff]; decide +kernel) h4
        | 0, _ => omega
        | 1, _ => omega
        | n + 3, h2 => cases h2
      | 2, h1 => obtain rfl := Option.some.inj h1; exact absurd (by rw [← collinear_iff]; decide +kernel) h3
      | n + 3, h1 => cases h1

end Kigumi.Props
