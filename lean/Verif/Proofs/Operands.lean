import Verif.Model.Corefinement
import Verif.Proofs.Corners
import Verif.Proofs.Laid
import Verif.Props.Coplanar
import Verif.Proofs.CoplanarRuns
import Verif.Props.Candidates
import Verif.Props.PointInserter
import Verif.Props.Corefine
import Verif.Props.Overlaps

/-! # Operands, point ids, tags and candidate pairs -/
namespace Kigumi.Corefine
open Kigumi Outcome Geo Spec.Triangles Spec.Side
open Kigumi.Spec (SameTri HasCorners FaceCorners ValidFaces ThreeCorners NoRepeatedFaces)
open Kigumi.Side (Ok ok_of_proper)
variable {op : Bool → List (Tri P3)} {D : Type} {s : Bool → Soup P3 D}

/-- Two soups whose triangles are complexes without repetition. -/
structure Operands (op : Bool → List (Tri P3)) (s : Bool → Soup P3 D) : Prop where
  corners : ∀ b, HasCorners (s b).points (s b).faces (op b)
  complex : ∀ b, Complex (op b)
  once : ∀ b, Once (op b)
  data : ∀ b, (s b).data.length = (s b).faces.length

/-- The same without the condition on self-intersections. -/
structure Soups (op : Bool → List (Tri P3)) (s : Bool → Soup P3 D) : Prop where
  corners : ∀ b, HasCorners (s b).points (s b).faces (op b)
  proper : ∀ b, ∀ t ∈ op b, Proper t
  once : ∀ b, Once (op b)
  data : ∀ b, (s b).data.length = (s b).faces.length

theorem Operands.soups (h : Operands op s) : Soups op s := ⟨h.corners, fun b => (h.complex b).proper, h.once, h.data⟩

instance : Coe (Operands op s) (Soups op s) := ⟨Operands.soups⟩

/-- The points of both operands, and the ids of the vertices of one. -/
def base (s : Bool → Soup P3 D) : List P3 := (corefinePoints (s true).points (s false).points).1.points
def idsOf (s : Bool → Soup P3 D) (b : Bool) : List Nat := if b then (corefinePoints (s true).points (s false).points).2.1 else (corefinePoints (s true).points (s false).points).2.2

/-- The ids refer to the corners. -/
def Refers (pts : List P3) (x : Tri Nat) (t : Tri P3) : Prop := pts[x.a]? = some t.a ∧ pts[x.b]? = some t.b ∧ pts[x.c]? = some t.c

theorem base_nodup (s : Bool → Soup P3 D) : (base s).Nodup := (Props.C38_operands _ _).2.2.1

theorem ids_length (s : Bool → Soup P3 D) (b : Bool) : (idsOf s b).length = (s b).points.length := by
  obtain ⟨h1, h2, -⟩ := Props.C38_operands (s true).points (s false).points
  cases b
  · exact h2
  · exact h1

theorem ids_point (s : Bool → Soup P3 D) (b : Bool) {i : Nat} {p : P3} (h : (s b).points[i]? = some p) : ∃ id, (idsOf s b)[i]? = some id ∧ (base s)[id]? = some p := by
  obtain ⟨-, -, -, h1, h2⟩ := Props.C38_operands (s true).points (s false).points
  cases b
  · exact h2 i p h
  · exact h1 i p h

theorem get_inj {pts : List P3} (hn : pts.Nodup) {i j : Nat} {p : P3} (h : pts[i]? = some p) (h' : pts[j]? = some p) : i = j := by
  obtain ⟨l1, e1⟩ := List.getElem?_eq_some_iff.1 h
  obtain ⟨l2, e2⟩ := List.getElem?_eq_some_iff.1 h'
  exact (hn.getElem_inj_iff).1 (e1.trans e2.symm)

theorem face_corners (h : Soups op s) {b : Bool} {fi : Nat} {t : Tri P3} : (op b)[fi]? = some t ↔ FaceCorners (s b).points (s b).faces fi t := by
  have hf := h.corners b
  constructor
  · intro ht
    obtain ⟨hl, rfl⟩ := List.getElem?_eq_some_iff.1 ht
    have hl' : fi < (s b).faces.length := by rw [hf.length_eq]; exact hl
    exact ⟨_, List.getElem?_eq_getElem hl', hf.get hl' hl⟩
  · rintro ⟨f, hff, h1, h2, h3⟩
    obtain ⟨hl, rfl⟩ := List.getElem?_eq_some_iff.1 hff
    have hl' : fi < (op b).length := by rw [← hf.length_eq]; exact hl
    obtain ⟨g1, g2, g3⟩ := hf.get hl hl'
    rw [List.getElem?_eq_getElem hl']
    have e1 := Option.some.inj (g1.symm.trans h1); have e2 := Option.some.inj (g2.symm.trans h2); have e3 := Option.some.inj (g3.symm.trans h3)
    congr 1
    cases t
    simp only at e1 e2 e3
    rw [← e1, ← e2, ← e3]
    rfl

theorem face_length (h : Soups op s) (b : Bool) : (s b).faces.length = (op b).length := (h.corners b).length_eq

theorem face_ids (h : Soups op s) {b : Bool} {fi : Nat} {t : Tri P3} (ht : (op b)[fi]? = some t) :
    ∃ f x, (s b).faces[fi]? = some f ∧ (idsOf s b)[f.a]? = some x.a ∧ (idsOf s b)[f.b]? = some x.b ∧ (idsOf s b)[f.c]? = some x.c ∧ faceIds (s b).faces (idsOf s b) fi = ok x ∧ Refers (base s) x t := by
  obtain ⟨f, hf, h1, h2, h3⟩ := (face_corners h).1 ht
  obtain ⟨a, a1, a2⟩ := ids_point s b h1
  obtain ⟨c, c1, c2⟩ := ids_point s b h2
  obtain ⟨d, d1, d2⟩ := ids_point s b h3
  refine ⟨f, ⟨a, c, d⟩, hf, a1, c1, d1, ?_, a2, c2, d2⟩
  have e : ∀ {α : Type} {l : List α} {i : Nat} {y : α}, l[i]? = some y → at! l i = ok y := fun h => by unfold at!; rw [h]
  show ((at! (s b).faces fi).bind fun f => (at! (idsOf s b) f.a).bind fun a => (at! (idsOf s b) f.b).bind fun c => (at! (idsOf s b) f.c).bind fun d => ok (⟨a, c, d⟩ : Tri Nat)) = _
  rw [e hf]
  show ((at! (idsOf s b) f.a).bind fun a => (at! (idsOf s b) f.b).bind fun c => (at! (idsOf s b) f.c).bind fun d => ok (⟨a, c, d⟩ : Tri Nat)) = _
  rw [e a1, e c1, e d1]
  rfl

theorem face_ids_eq (h : Soups op s) {b : Bool} {fi : Nat} {t : Tri P3} {x : Tri Nat} (ht : (op b)[fi]? = some t) (hx : faceIds (s b).faces (idsOf s b) fi = ok x) : Refers (base s) x t := by
  obtain ⟨_, y, -, -, -, -, h1, h2⟩ := face_ids h ht
  rw [hx] at h1; cases h1; exact h2

/-! ## Tags -/

theorem flip_same {t u : Tri P3} (h : Spec.SameFace t u.flip) : SameTri t.flip u := by
  obtain ⟨a, b, c⟩ := t
  obtain ⟨p, q, r⟩ := u
  simp only [Spec.SameFace, Tri.flip, Tri.rot, Tri.mk.injEq] at h
  simp only [SameTri, Tri.flip, Tri.rot, Tri.mk.injEq]
  tauto

theorem same_flip {t u : Tri P3} (h : SameTri t.flip u) : Spec.SameFace t u.flip := by
  obtain ⟨a, b, c⟩ := t
  obtain ⟨p, q, r⟩ := u
  simp only [SameTri, Tri.flip, Tri.rot, Tri.mk.injEq] at h
  simp only [Spec.SameFace, Tri.flip, Tri.rot, Tri.mk.injEq]
  tauto

theorem valid (h : Soups op s) (b : Bool) : ValidFaces (s b).points (s b).faces := by
  intro f hf
  obtain ⟨i, hi, rfl⟩ := List.mem_iff_getElem.1 hf
  have hl : i < (op b).length := by rw [← face_length h b]; exact hi
  obtain ⟨h1, h2, h3⟩ := (h.corners b).get hi hl
  exact ⟨(List.getElem?_eq_some_iff.1 h1).1, (List.getElem?_eq_some_iff.1 h2).1, (List.getElem?_eq_some_iff.1 h3).1⟩

theorem distinct_corners {t : Tri P3} (h : Ok t) : t.a ≠ t.b ∧ t.b ≠ t.c ∧ t.a ≠ t.c := by
  obtain ⟨n1, n2, n3⟩ := PointInserter.normal_distinct h
  exact ⟨n1, n2, fun e => n3 e.symm⟩

theorem three (h : Soups op s) (b : Bool) : ThreeCorners (s b).points (s b).faces := fun i t ht =>
  distinct_corners (ok_of_proper (h.proper b t (List.mem_of_getElem? ((face_corners h).2 ht))))

theorem no_repeated (h : Soups op s) (b : Bool) : NoRepeatedFaces (s b).points (s b).faces := fun i j t u ht hu hm =>
  h.once b i j t u ((face_corners h).2 ht) ((face_corners h).2 hu) (hm.imp id flip_same)

/-- What a tag given by the search for coplanar faces says. -/
def Tagged (op : Bool → List (Tri P3)) (b : Bool) (t : Tri P3) (tag : Tag) : Prop :=
  (tag = .unknown ↔ ¬ Coincides op b t) ∧ (tag = .unknown ∨ (tag = .coplanar ∧ ∃ u ∈ op (!b), SameTri t u) ∨ (tag = .opposite ∧ ∃ u ∈ op (!b), SameTri t.flip u))

theorem tagged_of (h : Soups op s) {b : Bool} {t : Tri P3} {tag : Tag} (ht : Coplanar.TagSays t (FaceCorners (s (!b)).points (s (!b)).faces) tag) : Tagged op b t tag := by
  obtain ⟨h1, h2, h3⟩ := ht
  have m1 : tag = .coplanar ↔ ∃ u ∈ op (!b), SameTri t u := by
    rw [h1]
    constructor
    · rintro ⟨j, u, hu, hs⟩; exact ⟨u, List.mem_of_getElem? ((face_corners h).2 hu), hs⟩
    · rintro ⟨u, hu, hs⟩
      obtain ⟨j, hj⟩ := List.mem_iff_getElem?.1 hu
      exact ⟨j, u, (face_corners h).1 hj, hs⟩
  have m2 : tag = .opposite ↔ ∃ u ∈ op (!b), SameTri t.flip u := by
    rw [h2]
    constructor
    · rintro ⟨j, u, hu, hs⟩; exact ⟨u, List.mem_of_getElem? ((face_corners h).2 hu), flip_same hs⟩
    · rintro ⟨u, hu, hs⟩
      obtain ⟨j, hj⟩ := List.mem_iff_getElem?.1 hu
      exact ⟨j, u, (face_corners h).1 hj, same_flip hs⟩
  refine ⟨⟨?_, ?_⟩, ?_⟩
  · rintro rfl ⟨u, hu, hm | hm⟩
    · exact absurd (m1.2 ⟨u, hu, hm⟩) (by decide)
    · exact absurd (m2.2 ⟨u, hu, hm⟩) (by decide)
  · intro hc
    rcases h3 with e | e | e
    · obtain ⟨u, hu, hs⟩ := m1.1 e
      exact absurd ⟨u, hu, .inl hs⟩ hc
    · obtain ⟨u, hu, hs⟩ := m2.1 e
      exact absurd ⟨u, hu, .inr hs⟩ hc
    · exact e
  · rcases h3 with e | e | e
    · exact .inr (.inl ⟨e, m1.1 e⟩)
    · exact .inr (.inr ⟨e, m2.1 e⟩)
    · exact .inl e

/-- Tags of both operands. -/
structure Tags (op : Bool → List (Tri P3)) (tags : Bool → List Tag) : Prop where
  length : ∀ b, (tags b).length = (op b).length
  tagged : ∀ (b : Bool) (fi : Nat) (t : Tri P3), (op b)[fi]? = some t → ∃ tag, (tags b)[fi]? = some tag ∧ Tagged op b t tag

/-- A list for each operand. -/
def both {α : Type} (l r : α) (b : Bool) : α := if b then l else r

theorem tags_ok (h : Soups op s) {lt rt : List Tag} (hr : Coplanar.Returns (s true).faces (s false).faces (idsOf s true) (idsOf s false) lt rt) : Tags op (both lt rt) := by
  obtain ⟨-, hall⟩ := Props.C31_found (s true).points (s false).points (s true).faces (s false).faces (valid h true) (valid h false) (three h true) (three h false) (no_repeated h true) (no_repeated h false)
  obtain ⟨l1, l2, t1, t2⟩ := hall lt rt hr
  constructor
  · intro b
    cases b
    · exact l2.trans (face_length h false)
    · exact l1.trans (face_length h true)
  · intro b fi t ht
    cases b
    · obtain ⟨tag, e, hs⟩ := t2 fi t ((face_corners h).1 ht)
      exact ⟨tag, e, tagged_of (b := false) h hs⟩
    · obtain ⟨tag, e, hs⟩ := t1 fi t ((face_corners h).1 ht)
      exact ⟨tag, e, tagged_of (b := true) h hs⟩

theorem ids_valid (s : Bool → Soup P3 D) (b : Bool) : ValidFaces (idsOf s b) (s b).faces ↔ ValidFaces (s b).points (s b).faces := by
  unfold ValidFaces
  rw [ids_length]

theorem tags_run (h : Soups op s) {c hw : Nat} {o : Outcome (List Tag × List Tag)} (ho : Coplanar.execute c hw (s true).faces (s false).faces (idsOf s true) (idsOf s false) o) : ∃ t, o = ok t ∧ Tags op (both t.1 t.2) := by
  obtain ⟨t, e, ht⟩ := Coplanar.execute_valid ((ids_valid s true).2 (valid h true)) ((ids_valid s false).2 (valid h false)) ho
  exact ⟨t, e, tags_ok h ht⟩

theorem tag_unknown {tags : Bool → List Tag} (ht : Tags op tags) {b : Bool} {fi : Nat} : (tags b)[fi]? = some .unknown ↔ ∃ t, (op b)[fi]? = some t ∧ ¬ Coincides op b t := by
  constructor
  · intro h
    have hl : fi < (op b).length := by rw [← ht.length b]; exact (List.getElem?_eq_some_iff.1 h).1
    obtain ⟨tag, e, hs⟩ := ht.tagged b fi _ (List.getElem?_eq_getElem hl)
    rw [h] at e; cases e
    exact ⟨_, List.getElem?_eq_getElem hl, hs.1.1 rfl⟩
  · rintro ⟨t, h1, h2⟩
    obtain ⟨tag, e, hs⟩ := ht.tagged b fi t h1
    rw [e, hs.1.2 h2]

/-! ## Candidate pairs -/

/-- What is assumed of the environment: exact constructions, boxes around the triangles, a tree whose construction permutes the leaves, at least one thread, and triangulations that throw only if constraints cross. -/
structure Env.Valid (E : Env) (op : Bool → List (Tri P3)) : Prop where
  lines : LineLine E.kernel.lineLine
  planes : PlaneLine E.kernel.planeLine
  tree : ∀ b, Props.Encloses (E.treeBoxes b) (op b)
  query : ∀ b, Props.Encloses (E.queryBoxes b) (op b)
  arr : ∀ k l, (E.arr k l).Perm l
  threads : 1 ≤ E.configured
  crosses : ∀ points t i j f, E.crosses points t i j = true → ({ t with constraints := t.constraints ++ [(i, j)] } : Cdt).Expected points f → False

/-- The candidate pairs: faces that do not coincide with faces of the other operand, among them all pairs with common points. -/
structure Pairs (op : Bool → List (Tri P3)) (pairs : List (Nat × Nat)) : Prop where
  nodup : pairs.Nodup
  sound : ∀ p ∈ pairs, ∃ t u, (op true)[p.1]? = some t ∧ (op false)[p.2]? = some u ∧ ¬ Coincides op true t ∧ ¬ Coincides op false u
  complete : ∀ (i j : Nat) (t u : Tri P3) (x : P3), (op true)[i]? = some t → (op false)[j]? = some u → ¬ Coincides op true t → ¬ Coincides op false u → In t x → In u x → (i, j) ∈ pairs

theorem pairs_ok {E : Env} (hE : E.Valid op) {tags : Bool → List Tag} (ht : Tags op tags) {r : ParallelDo.Result String (List (Nat × Nat))}
    (h : Candidates.Returns E.arr E.limit E.configured E.hardware E.nodes E.dflt (E.treeBoxes true) (E.treeBoxes false) (E.queryBoxes true) (E.queryBoxes false) (tags true) (tags false) r) :
    r.exc = none ∧ Pairs op r.acc := by
  have ne : ∀ {boxes : List Spec.Box} {ts : List (Tri P3)}, Props.Encloses boxes ts → ∀ b ∈ boxes, ∃ p, b.Mem p := by
    intro boxes ts he b hb
    obtain ⟨i, hi⟩ := List.mem_iff_getElem?.1 hb
    have hl : i < ts.length := by rw [← he.1]; exact (List.getElem?_eq_some_iff.1 hi).1
    exact ⟨_, he.2 i _ b (List.getElem?_eq_getElem hl) hi ts[i].a ⟨1, 0, 0, by norm_num, by norm_num, by norm_num, by norm_num, by simp⟩⟩
  obtain ⟨h1, h2, h3⟩ := Props.C32_pairs E.arr hE.arr E.limit E.configured E.hardware hE.threads E.nodes E.dflt _ _ _ _ (tags true) (tags false) ((ht.length true).trans (hE.tree true).1.symm)
    ((ht.length false).trans (hE.tree false).1.symm) ((hE.query true).1.trans (hE.tree true).1.symm) ((hE.query false).1.trans (hE.tree false).1.symm)
    (fun b hb => by rcases hb with hb | hb | hb | hb <;> [exact ne (hE.tree true) b hb; exact ne (hE.tree false) b hb; exact ne (hE.query true) b hb; exact ne (hE.query false) b hb]) h
  refine ⟨h1, h2, ?_, ?_⟩
  · rintro ⟨i, j⟩ hp
    obtain ⟨a1, a2, -⟩ := (h3 i j).1 hp
    obtain ⟨t, t1, t2⟩ := (tag_unknown ht).1 a1
    obtain ⟨u, u1, u2⟩ := (tag_unknown ht).1 a2
    exact ⟨t, u, t1, u1, t2, u2⟩
  · intro i j t u x hi hj hti huj hx hy
    exact Props.C32_complete E.arr hE.arr E.limit E.configured E.hardware hE.threads E.nodes E.dflt (op true) (op false) _ _ _ _ (tags true) (tags false) (ht.length true) (ht.length false)
      (hE.tree true) (hE.tree false) (hE.query true) (hE.query false) h hi hj ((tag_unknown ht).2 ⟨t, hi, hti⟩) ((tag_unknown ht).2 ⟨u, hj, huj⟩) (Overlaps.hull_iff.2 hx) (Overlaps.hull_iff.2 hy)

/-! ## Records -/

/-- What is known of a record before points are constructed. -/
structure Recorded (op : Bool → List (Tri P3)) (s : Bool → Soup P3 D) (x : Info) (t u : Tri P3) (l r : Tri Nat) : Prop where
  left : (op true)[x.left]? = some t
  right : (op false)[x.right]? = some u
  apartL : ¬ Coincides op true t
  apartR : ¬ Coincides op false u
  leftIds : faceIds (s true).faces (idsOf s true) x.left = ok l
  rightIds : faceIds (s false).faces (idsOf s false) x.right = ok r
  syms : FaceFace.intersect (base s) l.a l.b l.c r.a r.b r.c = ok x.syms
  ne : x.syms ≠ []

/-- All records: one for each pair of faces with common points. -/
structure Records (op : Bool → List (Tri P3)) (s : Bool → Soup P3 D) (infos : List Info) : Prop where
  sound : ∀ x ∈ infos, ∃ t u l r, Recorded op s x t u l r
  complete : ∀ (i j : Nat) (t u : Tri P3) (y : P3), (op true)[i]? = some t → (op false)[j]? = some u → ¬ Coincides op true t → ¬ Coincides op false u → In t y → In u y → ∃ x ∈ infos, x.left = i ∧ x.right = j

theorem two_of (h : Soups op s) {i j : Nat} {t u : Tri P3} (ht : (op true)[i]? = some t) (hu : (op false)[j]? = some u) {l r : Tri Nat} (hl : Refers (base s) l t) (hr : Refers (base s) r u) :
    FaceFace.Two (base s) l.a l.b l.c r.a r.b r.c t.a t.b t.c u.a u.b u.c :=
  ⟨hl.1, hl.2.1, hl.2.2, hr.1, hr.2.1, hr.2.2, PointInserter.collinear_normal (ok_of_proper (h.proper true t (List.mem_of_getElem? ht))), PointInserter.collinear_normal (ok_of_proper (h.proper false u (List.mem_of_getElem? hu)))⟩

/-- The records of one pair. -/
def recordsOf (s : Bool → Soup P3 D) (p : Nat × Nat) : List Info :=
  match symBody (base s) (s true).faces (s false).faces (idsOf s true) (idsOf s false) p [] with
  | ok x => x
  | _ => []

theorem symBody_ok (h : Soups op s) {p : Nat × Nat} {t u : Tri P3} (ht : (op true)[p.1]? = some t) (hu : (op false)[p.2]? = some u) (acc : List Info) :
    ∃ l r syms, faceIds (s true).faces (idsOf s true) p.1 = ok l ∧ faceIds (s false).faces (idsOf s false) p.2 = ok r ∧ FaceFace.intersect (base s) l.a l.b l.c r.a r.b r.c = ok syms ∧
      (syms ≠ [] ↔ ∃ x, In t x ∧ In u x) ∧
      symBody (base s) (s true).faces (s false).faces (idsOf s true) (idsOf s false) p acc = ok (acc ++ if syms.isEmpty then [] else [⟨p.1, p.2, syms, []⟩]) := by
  obtain ⟨_, l, -, -, -, -, hl, hl'⟩ := face_ids h ht
  obtain ⟨_, r, -, -, -, -, hr, hr'⟩ := face_ids h hu
  obtain ⟨syms, e, hs⟩ := FaceFace.C33_detection (two_of h ht hu hl' hr')
  refine ⟨l, r, syms, hl, hr, e, hs, ?_⟩
  show ((faceIds (s true).faces (idsOf s true) p.1).bind fun l => (faceIds (s false).faces (idsOf s false) p.2).bind fun r => (FaceFace.intersect (base s) l.a l.b l.c r.a r.b r.c).bind fun syms =>
    if syms.isEmpty then ok acc else ok (acc ++ [⟨p.1, p.2, syms, []⟩])) = _
  rw [hl]
  show ((faceIds (s false).faces (idsOf s false) p.2).bind fun r => (FaceFace.intersect (base s) l.a l.b l.c r.a r.b r.c).bind fun syms => if syms.isEmpty then ok acc else ok (acc ++ [⟨p.1, p.2, syms, []⟩])) = _
  rw [hr]
  show ((FaceFace.intersect (base s) l.a l.b l.c r.a r.b r.c).bind fun syms => if syms.isEmpty then ok acc else ok (acc ++ [⟨p.1, p.2, syms, []⟩])) = _
  rw [e]
  show (if syms.isEmpty then ok acc else ok (acc ++ [⟨p.1, p.2, syms, []⟩])) = _
  split <;> simp

theorem records_ok (h : Soups op s) {pairs : List (Nat × Nat)} (hp : Pairs op pairs) {configured hardware : Nat} (hc : 1 ≤ configured) {r : ParallelDo.Result String (List Info)}
    (hr : ParallelDo.Returns (symLoop (base s) (s true).faces (s false).faces (idsOf s true) (idsOf s false) pairs) configured hardware [] r) :
    r.exc = none ∧ Records op s r.acc ∧ ∀ x ∈ r.acc, x.ids = [] := by
  have body : ∀ p ∈ pairs, ∀ acc, symBody (base s) (s true).faces (s false).faces (idsOf s true) (idsOf s false) p acc = ok (acc ++ recordsOf s p) := by
    intro p hpp acc
    obtain ⟨t, u, ht, hu, -, -⟩ := hp.sound p hpp
    obtain ⟨l, r, syms, h1, h2, h3, -, h5⟩ := symBody_ok h ht hu []
    obtain ⟨l', r', syms', h1', h2', h3', -, h5'⟩ := symBody_ok h ht hu acc
    rw [h1] at h1'; cases h1'; rw [h2] at h2'; cases h2'; rw [h3] at h3'; cases h3'
    unfold recordsOf
    rw [h5', h5, List.nil_append]
  obtain ⟨h1, h2⟩ := Candidates.collect_of (symLoop (base s) (s true).faces (s false).faces (idsOf s true) (idsOf s false) pairs) (fun i => match pairs[i]? with | some p => recordsOf s p | none => []) rfl
    (by
      intro i acc hi
      have hi' : i < pairs.length := hi
      show (match pairs[i]? with | none => _ | some pr => _) = _
      rw [List.getElem?_eq_getElem hi']
      dsimp only
      rw [body _ (List.getElem_mem hi')]
      rfl) rfl
    (by
      intro g acc
      show ((if g.isEmpty then acc else g ++ acc), none) = _
      split
      · next hg => rw [List.isEmpty_iff.1 hg]; rfl
      · rfl) hc hr
  have hmem : ∀ x, x ∈ r.acc ↔ ∃ p ∈ pairs, x ∈ recordsOf s p := by
    intro x
    rw [h2.mem_iff, List.nil_append, List.mem_flatMap]
    constructor
    · rintro ⟨i, hi, hx⟩
      have hi' : i < pairs.length := List.mem_range.1 hi
      rw [List.getElem?_eq_getElem hi'] at hx
      exact ⟨_, List.getElem_mem hi', hx⟩
    · rintro ⟨p, hpp, hx⟩
      obtain ⟨i, hi, rfl⟩ := List.mem_iff_getElem.1 hpp
      exact ⟨i, List.mem_range.2 hi, by rw [List.getElem?_eq_getElem hi]; exact hx⟩
  have hrec : ∀ p ∈ pairs, ∀ x ∈ recordsOf s p, x.left = p.1 ∧ x.right = p.2 ∧ x.ids = [] ∧ ∃ t u l r, Recorded op s x t u l r := by
    intro p hpp x hx
    obtain ⟨t, u, ht, hu, ct, cu⟩ := hp.sound p hpp
    obtain ⟨l, r, syms, a1, a2, a3, -, a5⟩ := symBody_ok h ht hu []
    unfold recordsOf at hx
    rw [a5, List.nil_append] at hx
    dsimp only at hx
    split at hx
    · cases hx
    · next hne =>
      rw [List.mem_singleton.1 hx]
      exact ⟨rfl, rfl, rfl, t, u, l, r, ht, hu, ct, cu, a1, a2, a3, fun e => hne (List.isEmpty_iff.2 e)⟩
  refine ⟨h1, ⟨?_, ?_⟩, ?_⟩
  · intro x hx
    obtain ⟨p, hpp, hx⟩ := (hmem x).1 hx
    exact (hrec p hpp x hx).2.2.2
  · intro i j t u y ht hu ct cu hy hy'
    have hpp := hp.complete i j t u y ht hu ct cu hy hy'
    obtain ⟨l, r, syms, a1, a2, a3, a4, a5⟩ := symBody_ok (p := (i, j)) h ht hu []
    refine ⟨⟨i, j, syms, []⟩, (hmem _).2 ⟨_, hpp, ?_⟩, rfl, rfl⟩
    unfold recordsOf
    rw [a5, if_neg (fun e => a4.2 ⟨y, hy, hy'⟩ (List.isEmpty_iff.1 e))]
    simp
  · intro x hx
    obtain ⟨p, hpp, hx⟩ := (hmem x).1 hx
    exact (hrec p hpp x hx).2.2.1

end Kigumi.Corefine
