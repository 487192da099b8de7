import Verif.Proofs.Inserted
import Verif.Proofs.Apart

/-! # The triangulations of the faces -/
namespace Kigumi.Corefine
open Kigumi Outcome Geo Spec.Triangles Spec.Side
open Kigumi.Spec (SameTri HasCorners FaceCorners Follows IsEdgeOf)
open Kigumi.Side (Ok ok_of_proper)
open Kigumi.Cutting (Q Next)
variable {op : Bool → List (Tri P3)} {D : Type} {s : Bool → Soup P3 D} {pts : List P3} {b : Bool} {fc : Region.Code} {f : Tri Nat} {t u : Tri P3} {recs : List Info}

theorem joined_comm {t u : Tri P3} {c d : P3} (h : Joined t u c d) : Joined u t c d := by
  obtain ⟨h1, h2, h3, h4⟩ := h
  have e : Common t u = Common u t := Cutting.meet_comm
  rw [e] at h1 h2 h4
  refine ⟨h1, h2, h3, ?_⟩
  rcases h4 with h | h | h
  · exact .inr (.inl h)
  · exact .inl h
  · exact .inr (.inr h)

theorem joined_swap {t u : Tri P3} {c d : P3} (h : Joined t u c d) : Joined t u d c := by
  obtain ⟨h1, h2, h3, h4⟩ := h
  have sw : ∀ {a b c x y : P3}, SameEdge a b c x y → SameEdge a b c y x := by
    rintro a b c x y (⟨p, q⟩ | ⟨p, q⟩ | ⟨p, q⟩)
    · exact .inl ⟨q, p⟩
    · exact .inr (.inl ⟨q, p⟩)
    · exact .inr (.inr ⟨q, p⟩)
  refine ⟨h2, h1, h3.symm, ?_⟩
  rcases h4 with h | h | h
  · exact .inl (sw h)
  · exact .inr (.inl (sw h))
  · exact .inr (.inr fun x hx => (h x hx).symm)

/-- The part of a corner is not a vertex of the face. -/
def NotVertex (r : Region.Code) : Prop := ¬ (r = Region.LV0 ∨ r = Region.RV0) ∧ ¬ (r = Region.LV1 ∨ r = Region.RV1) ∧ ¬ (r = Region.LV2 ∨ r = Region.RV2)

/-- The record `y` is what the triangle `t` with corners `f` has in common with the triangle `u`. -/
structure Cutter (pts : List P3) (fc : Region.Code) (f : Tri Nat) (t u : Tri P3) (y : Info) (ws : List P3) : Prop where
  syms : y.syms.length = y.ids.length
  fits : ∀ (i : Nat) id code, y.ids[i]? = some id → y.syms[i]? = some code → Fits (Cdt.new fc f.a f.b f.c) id code
  inner : ∀ (i : Nat) id code, y.ids[i]? = some id → y.syms[i]? = some code → NotVertex (Region.inter code fc) → ∀ w, pts[id]? = some w → w ∉ t.toList
  points : ∀ (i : Nat) id, y.ids[i]? = some id → ∃ w, pts[id]? = some w ∧ ws[i]? = some w
  length : ws.length = y.ids.length
  all : ∀ x, x ∈ ws ↔ Q t u x
  joined : ∀ c d, Joined t u c d ↔ 2 ≤ ws.length ∧ (Next ws c d ∨ Next ws d c)

theorem pointed_list (h : Soups op s) {x : Info} {t u : Tri P3} {l r : Tri Nat} (hp : Pointed op s pts x t u l r) : ∃ ws : List P3, ws.length = x.ids.length ∧ (∀ (i : Nat) id, x.ids[i]? = some id → ∃ w, pts[id]? = some w ∧ ws[i]? = some w) ∧
    (∀ y, y ∈ ws ↔ Q t u y) ∧ ∀ c d, Joined t u c d ↔ 2 ≤ ws.length ∧ (Next ws c d ∨ Next ws d c) := by
  have key : ∀ (i : Nat) id, x.ids[i]? = some id → ∃ w, pts[id]? = some w ∧ ∀ code, x.syms[i]? = some code → IsCorner t.a t.b t.c u.a u.b u.c code w := by
    intro i id hi
    have hl : i < x.syms.length := by rw [← hp.length]; exact (List.getElem?_eq_some_iff.1 hi).1
    obtain ⟨w, h1, h2⟩ := hp.corner i _ id (List.getElem?_eq_getElem hl) hi
    refine ⟨w, h1, fun code hc => ?_⟩
    rw [List.getElem?_eq_getElem hl] at hc; cases hc
    exact h2
  have hget : ∀ (i : Nat) id, x.ids[i]? = some id → ∃ w, pts[id]? = some w ∧ (x.ids.map fun id => (pts[id]?).getD ⟨0, 0, 0⟩)[i]? = some w := by
    intro i id hi
    obtain ⟨w, h1, -⟩ := key i id hi
    exact ⟨w, h1, by rw [List.getElem?_map, hi]; simp [h1]⟩
  obtain ⟨hl, hr⟩ := recorded_refers h hp.toRecorded
  obtain ⟨c1, -, c3⟩ := Cutting.corners_points (two_of h hp.left hp.right hl hr) hp.syms (xs := x.ids.map fun id => (pts[id]?).getD ⟨0, 0, 0⟩) (by rw [List.length_map, hp.length]) (by
    intro i code w hc hw
    rw [List.getElem?_map] at hw
    cases hi : x.ids[i]? with
    | none => rw [hi] at hw; simp at hw
    | some id =>
      rw [hi] at hw
      obtain ⟨w', h1, h2⟩ := key i id hi
      simp [h1] at hw
      subst hw
      exact h2 code hc)
  exact ⟨_, by rw [List.length_map], hget, c1, c3⟩

theorem cutter_left (h : Soups op s) {x : Info} {l r : Tri Nat} (hp : Pointed op s pts x t u l r) : ∃ ws, Cutter pts Region.LF l t u x ws := by
  obtain ⟨ws, h1, h2, h3, h4⟩ := pointed_list h hp
  refine ⟨ws, hp.length.symm, hp.fitsL, ?_, h2, h1, h3, h4⟩
  intro i id code hi hc hn w hw hm
  obtain ⟨w', e, hcor⟩ := hp.corner i code id hc hi
  rw [hw] at e; cases e
  have ht := List.mem_of_getElem? hp.left
  obtain ⟨l', e, -, hall⟩ := FaceFace.C34_corners (two_of h hp.left hp.right (recorded_refers h hp.toRecorded).1 (recorded_refers h hp.toRecorded).2)
  rw [hp.syms] at e; cases e
  obtain ⟨s0, s1, s2, -, -⟩ := single_left code ((hall code).1 (List.mem_of_getElem? hc)).1
  rcases corner_pattern (complex_single (h.proper true t ht)) (by simp) (by simp) hm hcor.1.1 with ⟨b0, b1, b2, -⟩ | ⟨b0, b1, b2, -⟩ | ⟨b0, b1, b2, -⟩
  · exact hn.1 (.inl (s0.2 ⟨b0, b1, b2⟩))
  · exact hn.2.1 (.inl (s1.2 ⟨b0, b1, b2⟩))
  · exact hn.2.2 (.inl (s2.2 ⟨b0, b1, b2⟩))

theorem cutter_right (h : Soups op s) {x : Info} {l r : Tri Nat} (hp : Pointed op s pts x t u l r) : ∃ ws, Cutter pts Region.RF r u t x ws := by
  obtain ⟨ws, h1, h2, h3, h4⟩ := pointed_list h hp
  refine ⟨ws, hp.length.symm, hp.fitsR, ?_, h2, h1, fun x => (h3 x).trans Cutting.q_comm, fun c d => ⟨fun hj => (h4 c d).1 (joined_comm hj), fun hj => joined_comm ((h4 c d).2 hj)⟩⟩
  intro i id code hi hc hn w hw hm
  obtain ⟨w', e, hcor⟩ := hp.corner i code id hc hi
  rw [hw] at e; cases e
  have ht := List.mem_of_getElem? hp.right
  obtain ⟨l', e, -, hall⟩ := FaceFace.C34_corners (two_of h hp.left hp.right (recorded_refers h hp.toRecorded).1 (recorded_refers h hp.toRecorded).2)
  rw [hp.syms] at e; cases e
  obtain ⟨s0, s1, s2, -, -⟩ := single_right code ((hall code).1 (List.mem_of_getElem? hc)).1
  rcases corner_pattern (complex_single (h.proper false u ht)) (by simp) (by simp) hm hcor.1.2 with ⟨b0, b1, b2, -⟩ | ⟨b0, b1, b2, -⟩ | ⟨b0, b1, b2, -⟩
  · exact hn.1 (.inr (s0.2 ⟨b0, b1, b2⟩))
  · exact hn.2.1 (.inr (s1.2 ⟨b0, b1, b2⟩))
  · exact hn.2.2 (.inr (s2.2 ⟨b0, b1, b2⟩))

/-- A face and its records. -/
structure Seen (op : Bool → List (Tri P3)) (pts : List P3) (b : Bool) (fc : Region.Code) (f : Tri Nat) (t : Tri P3) (recs : List Info) : Prop where
  proper : Proper t
  apart : ¬ Coincides op b t
  refers : Refers pts f t
  sound : ∀ y ∈ recs, ∃ u ∈ op (!b), ¬ Coincides op (!b) u ∧ ∃ ws, Cutter pts fc f t u y ws
  complete : ∀ u ∈ op (!b), ¬ Coincides op (!b) u → (∃ x, Q t u x) → ∃ y ∈ recs, ∃ ws, Cutter pts fc f t u y ws

/-- The same if the other operand has no self-intersections: every point has one id. -/
structure Face (op : Bool → List (Tri P3)) (pts : List P3) (b : Bool) (fc : Region.Code) (f : Tri Nat) (t : Tri P3) (recs : List Info) : Prop extends Seen op pts b fc f t recs where
  complex : Complex (op !b)
  inj : ∀ x ∈ recs, ∀ y ∈ recs, ∀ i ∈ x.ids, ∀ j ∈ y.ids, pts[i]? = pts[j]? → i = j

/-- The triangulation so far. -/
structure Good (op : Bool → List (Tri P3)) (pts : List P3) (b : Bool) (fc : Region.Code) (f : Tri Nat) (t : Tri P3) (recs : List Info) (c : Cdt) : Prop where
  same : SameFace (Cdt.new fc f.a f.b f.c) c
  known : ∀ id ∈ c.known, (∃ y ∈ recs, id ∈ y.ids) ∧ ∃ w, pts[id]? = some w ∧ w ∉ t.toList ∧ ∃ u ∈ op (!b), ¬ Coincides op (!b) u ∧ Q t u w
  nodup : c.known.Nodup
  ends : ∀ e ∈ c.constraints, c.info e.1 ∈ c.vertexIds ∧ c.info e.2 ∈ c.vertexIds ∧ ∃ x y, pts[c.info e.1]? = some x ∧ pts[c.info e.2]? = some y ∧ CutSegment op b t x y

theorem good_new : Good op pts b fc f t recs (Cdt.new fc f.a f.b f.c) := ⟨.refl _, by simp [Cdt.new], by simp [Cdt.new], by simp [Cdt.new]⟩

theorem good_constraint {c : Cdt} (hg : Good op pts b fc f t recs c) {x y : P3} (h : c.Constraint pts x y) : CutSegment op b t x y := by
  obtain ⟨e, he, h1, h2⟩ := h
  obtain ⟨-, -, x', y', g1, g2, hc⟩ := hg.ends e he
  rw [h1] at g1; rw [h2] at g2
  cases g1; cases g2; exact hc

theorem good_expected (hf : Face op pts b fc f t recs) {c : Cdt} (hg : Good op pts b fc f t recs c) : c.Expected pts t := by
  obtain ⟨e1, e2, e3, e4⟩ := hg.same
  simp only [Cdt.new] at e1 e2 e3 e4
  obtain ⟨r1, r2, r3⟩ := hf.refers
  refine ⟨hf.proper, ⟨by rw [e2]; exact r1, by rw [e3]; exact r2, by rw [e4]; exact r3⟩, ?_, ?_, ?_, ?_⟩
  · intro id hid
    obtain ⟨-, w, h1, -, u, hu, -, hq⟩ := hg.known id hid
    exact ⟨w, h1, hq.1.1⟩
  · obtain ⟨d1, d2, d3⟩ := distinct_corners (ok_of_proper hf.proper)
    have out : ∀ v ∈ t.toList, some v ∉ c.known.map (pts[·]?) := by
      intro v hv hm
      obtain ⟨id, hid, e⟩ := List.mem_map.1 hm
      obtain ⟨-, w, h1, h2, -⟩ := hg.known id hid
      rw [h1] at e; cases e; exact h2 hv
    unfold Cdt.vertexIds
    simp only [List.map_cons, List.nodup_cons, List.mem_cons, e2, e3, e4, r1, r2, r3, Option.some.injEq, not_or]
    refine ⟨⟨d1, d3, out _ (by simp [Tri.toList])⟩, ⟨d2, out _ (by simp [Tri.toList])⟩, out _ (by simp [Tri.toList]), ?_⟩
    refine List.Nodup.map_on ?_ hg.nodup
    intro i hi j hj e
    obtain ⟨⟨x, hx, hix⟩, -⟩ := hg.known i hi
    obtain ⟨⟨y, hy, hjy⟩, -⟩ := hg.known j hj
    exact hf.inj x hx y hy i hix j hjy e
  · intro e he
    obtain ⟨h1, h2, x, y, g1, g2, -, u, -, -, hj⟩ := hg.ends e he
    refine ⟨h1, h2, fun e' => hj.2.2.1 ?_⟩
    rw [e', g2] at g1; exact (Option.some.inj g1).symm
  · intro x y x' y' h1 h2
    obtain ⟨-, u, hu, -, hj⟩ := good_constraint hg h1
    obtain ⟨-, u', hu', -, hj'⟩ := good_constraint hg h2
    exact Cutting.joined_apart hf.complex (ok_of_proper hf.proper) hu hu' hj hj'

theorem vertexIds_mono {c c' : Cdt} (h : SameFace c c') (hk : ∀ i ∈ c.known, i ∈ c'.known) {i : Nat} (hi : i ∈ c.vertexIds) : i ∈ c'.vertexIds := by
  obtain ⟨-, h2, h3, h4⟩ := h
  unfold Cdt.vertexIds at *
  rw [h2, h3, h4]
  simp only [List.mem_cons] at hi ⊢
  rcases hi with h | h | h | h
  · exact .inl h
  · exact .inr (.inl h)
  · exact .inr (.inr (.inl h))
  · exact .inr (.inr (.inr (hk i h)))

theorem good_same {c c' : Cdt} (hg : Good op pts b fc f t recs c) (hg' : Good op pts b fc f t recs c') : SameFace c c' := by
  obtain ⟨a1, a2, a3, a4⟩ := hg.same
  obtain ⟨b1, b2, b3, b4⟩ := hg'.same
  exact ⟨b1.trans a1.symm, b2.trans a2.symm, b3.trans a3.symm, b4.trans a4.symm⟩

/-- Inserting a corner of a record. -/
theorem good_insert {c : Cdt} (hg : Good op pts b fc f t recs c) {y : Info} (hy : y ∈ recs) {ws : List P3} (hu : u ∈ op (!b)) (hcu : ¬ Coincides op (!b) u) (hc : Cutter pts fc f t u y ws) {i id : Nat} {code : Region.Code} (hi : y.ids[i]? = some id)
    (hs : y.syms[i]? = some code) : ∃ c' v, c.insert id code = ok (c', v) ∧ Good op pts b fc f t recs c' ∧ c.info v = id ∧ id ∈ c'.vertexIds ∧ ∀ k ∈ c.known, k ∈ c'.known := by
  have hfit := hg.same.fits (hc.fits i id code hi hs)
  obtain ⟨r, hr, h0, h1, h2, hm⟩ := hfit
  have hface : c.face = fc := hg.same.1
  have hin : NotVertex r → ∃ c' v, ok (c.insertInner id) = ok (c', v) ∧ Good op pts b fc f t recs c' ∧ c.info v = id ∧ id ∈ c'.vertexIds ∧ ∀ k ∈ c.known, k ∈ c'.known := by
    intro hn
    unfold Cdt.insertInner
    split
    · rename_i hk
      exact ⟨c, .inner id, rfl, hg, rfl, by unfold Cdt.vertexIds; simp [hk], fun k hk => hk⟩
    · rename_i hk
      refine ⟨{ c with known := c.known ++ [id] }, .inner id, rfl, ⟨?_, ?_, ?_, ?_⟩, rfl, by unfold Cdt.vertexIds; simp, fun k hk => by simp [hk]⟩
      · exact hg.same.trans ⟨rfl, rfl, rfl, rfl⟩
      · intro k hk
        rcases List.mem_append.1 hk with hk | hk
        · exact hg.known k hk
        · simp only [List.mem_cons, List.not_mem_nil, or_false] at hk
          subst hk
          obtain ⟨w, w1, w2⟩ := hc.points i k hi
          exact ⟨⟨y, hy, List.mem_of_getElem? hi⟩, w, w1, hc.inner i k code hi hs (by rw [← hface, hr]; exact hn) w w1, u, hu, hcu, (hc.all w).1 (List.mem_of_getElem? w2)⟩
      · rw [List.nodup_append]
        exact ⟨hg.nodup, by simp, by rintro a ha d hd rfl; simp at hd; subst hd; exact hk ha⟩
      · intro e he
        have hs' : SameFace c { c with known := c.known ++ [id] } := ⟨rfl, rfl, rfl, rfl⟩
        obtain ⟨h1, h2, h3⟩ := hg.ends e he
        rw [hs'.info, hs'.info]
        exact ⟨vertexIds_mono hs' (fun k hk => by simp [hk]) h1, vertexIds_mono hs' (fun k hk => by simp [hk]) h2, h3⟩
  unfold Cdt.insert
  rw [hr]
  dsimp only
  by_cases c0 : r = Region.LV0 ∨ r = Region.RV0
  · rw [if_pos c0]; exact ⟨c, _, rfl, hg, by simp [Cdt.info, h0 c0], by rw [h0 c0]; simp [Cdt.vertexIds], fun k hk => hk⟩
  rw [if_neg c0]
  by_cases c1 : r = Region.LV1 ∨ r = Region.RV1
  · rw [if_pos c1]; exact ⟨c, _, rfl, hg, by simp [Cdt.info, h1 c1], by rw [h1 c1]; simp [Cdt.vertexIds], fun k hk => hk⟩
  rw [if_neg c1]
  by_cases c2 : r = Region.LV2 ∨ r = Region.RV2
  · rw [if_pos c2]; exact ⟨c, _, rfl, hg, by simp [Cdt.info, h2 c2], by rw [h2 c2]; simp [Cdt.vertexIds], fun k hk => hk⟩
  rw [if_neg c2]
  have hin := hin ⟨c0, c1, c2⟩
  by_cases c3 : r = Region.LE01 ∨ r = Region.RE01
  · rw [if_pos c3]; exact hin
  rw [if_neg c3]
  by_cases c4 : r = Region.LE12 ∨ r = Region.RE12
  · rw [if_pos c4]; exact hin
  rw [if_neg c4]
  by_cases c5 : r = Region.LE20 ∨ r = Region.RE20
  · rw [if_pos c5]; exact hin
  rw [if_neg c5]
  by_cases c6 : r = Region.LF ∨ r = Region.RF
  · rw [if_pos c6]; exact hin
  exfalso
  simp only [List.mem_cons, List.not_mem_nil, or_false] at hm
  clear hin hi hs hc hg
  tauto

/-- Constraints between consecutive corners of a record. -/
theorem good_edge {crosses : Cdt → Vh → Vh → Bool} (hcr : ∀ (c : Cdt) i j, crosses c i j = true → ({ c with constraints := c.constraints ++ [(i, j)] } : Cdt).Expected pts t → False) (hf : Face op pts b fc f t recs) {c : Cdt} (hg : Good op pts b fc f t recs c)
    {i j : Vh} (hi : c.info i ∈ c.vertexIds) (hj : c.info j ∈ c.vertexIds) {x y : P3} (hx : pts[c.info i]? = some x) (hy : pts[c.info j]? = some y) (hc : CutSegment op b t x y) :
    ∃ c', c.insertConstraint crosses i j = ok c' ∧ Good op pts b fc f t recs c' ∧ c'.known = c.known := by
  have hg' : Good op pts b fc f t recs { c with constraints := c.constraints ++ [(i, j)] } := by
    have hs' : SameFace c { c with constraints := c.constraints ++ [(i, j)] } := ⟨rfl, rfl, rfl, rfl⟩
    refine ⟨hg.same.trans hs', hg.known, hg.nodup, ?_⟩
    intro e he
    rw [hs'.info, hs'.info]
    rcases List.mem_append.1 he with he | he
    · exact hg.ends e he
    · simp only [List.mem_cons, List.not_mem_nil, or_false] at he
      subst he
      exact ⟨hi, hj, x, y, hx, hy, hc⟩
  refine ⟨_, ?_, hg', rfl⟩
  unfold Cdt.insertConstraint
  rw [if_neg]
  intro h
  exact hcr c i j h (good_expected hf hg')

theorem cutter_next {y : Info} {ws : List P3} (hc : Cutter pts fc f t u y ws) {i j k l : Nat} (hi : y.ids[i]? = some k) (hj : y.ids[j]? = some l) (e : j = (i + 1) % y.ids.length) (h2 : 2 ≤ y.ids.length) :
    ∃ x z, pts[k]? = some x ∧ pts[l]? = some z ∧ Joined t u x z := by
  obtain ⟨x, x1, x2⟩ := hc.points i k hi
  obtain ⟨z, z1, z2⟩ := hc.points j l hj
  exact ⟨x, z, x1, z1, (hc.joined x z).2 ⟨by rw [hc.length]; exact h2, .inl ⟨i, x2, by rw [hc.length, ← e]; exact z2⟩⟩⟩

variable {crosses : Cdt → Vh → Vh → Bool}

theorem good_loop (hcr : ∀ (c : Cdt) i j, crosses c i j = true → ({ c with constraints := c.constraints ++ [(i, j)] } : Cdt).Expected pts t → False) (hf : Face op pts b fc f t recs) {y : Info} (hy : y ∈ recs) {ws : List P3} (hu : u ∈ op (!b)) (hcu : ¬ Coincides op (!b) u) (hc : Cutter pts fc f t u y ws) :
    ∀ (n i : Nat) (c : Cdt) (p fi : Vh), i + 1 + n = y.ids.length → Good op pts b fc f t recs c → y.ids[i]? = some (c.info p) → c.info p ∈ c.vertexIds →
      ∃ c' p', insertLoop crosses y n (i + 1) c (some fi) (some p) = ok (c', some fi, some p') ∧ Good op pts b fc f t recs c' ∧ (∀ k ∈ c.known, k ∈ c'.known) ∧ y.ids[i + n]? = some (c'.info p') ∧ c'.info p' ∈ c'.vertexIds ∧
        ∀ j k, i < j → y.ids[j]? = some k → k ∈ c'.vertexIds := by
  intro n
  induction n with
  | zero =>
    intro i c p fi hn hg hp hm
    refine ⟨c, p, rfl, hg, fun k hk => hk, hp, hm, ?_⟩
    intro j k hj hk
    have := (List.getElem?_eq_some_iff.1 hk).1
    omega
  | succ n ih =>
    intro i c p fi hn hg hp hm
    have hlt : i + 1 < y.ids.length := by omega
    have hlt' : i + 1 < y.syms.length := by rw [hc.syms]; exact hlt
    have e1 : y.ids[i + 1]? = some y.ids[i + 1] := List.getElem?_eq_getElem hlt
    have e2 : y.syms[i + 1]? = some y.syms[i + 1] := List.getElem?_eq_getElem hlt'
    obtain ⟨c1, v, hins, hg1, hv, hvm, hk1⟩ := good_insert hg hy hu hcu hc e1 e2
    have hs1 := good_same hg hg1
    obtain ⟨x, z, hx, hz, hj⟩ := cutter_next hc hp e1 (by rw [Nat.mod_eq_of_lt hlt]) (by omega)
    have hv1 : c1.info v = y.ids[i + 1] := by rw [hs1.info]; exact hv
    obtain ⟨c2, hcon, hg2, hk2⟩ := good_edge (i := p) (j := v) hcr hf hg1 (by rw [hs1.info]; exact vertexIds_mono hs1 hk1 hm) (by rw [hv1]; exact hvm) (by rw [hs1.info]; exact hx) (by rw [hv1]; exact hz) ⟨hf.apart, u, hu, hcu, hj⟩
    have hs2 := good_same hg1 hg2
    have hm2 : y.ids[i + 1] ∈ c2.vertexIds := vertexIds_mono hs2 (by rw [hk2]; exact fun k hk => hk) hvm
    have hv2 : c2.info v = y.ids[i + 1] := by rw [hs2.info]; exact hv1
    obtain ⟨c3, p', hl, hg3, hk3, hp3, hm3, hall⟩ := ih (i + 1) c2 v fi (by omega) hg2 (by rw [hv2]; exact e1) (by rw [hv2]; exact hm2)
    refine ⟨c3, p', ?_, hg3, fun k hk => hk3 k (by rw [hk2]; exact hk1 k hk), by rw [← hp3]; congr 1; omega, hm3, ?_⟩
    · unfold insertLoop
      simp only [at!, e1, e2]
      show ((c.insert _ _).bind fun r => _) = _
      rw [hins]
      show ((c1.insertConstraint crosses p v).bind fun r => _) = _
      rw [hcon]
      exact hl
    · intro j k hj hk
      by_cases e : j = i + 1
      · subst e; rw [e1] at hk; cases hk
        exact vertexIds_mono (good_same hg2 hg3) hk3 hm2
      · exact hall j k (by omega) hk

theorem good_record (hcr : ∀ (c : Cdt) i j, crosses c i j = true → ({ c with constraints := c.constraints ++ [(i, j)] } : Cdt).Expected pts t → False) (hf : Face op pts b fc f t recs) {y : Info} (hy : y ∈ recs) {c : Cdt} (hg : Good op pts b fc f t recs c) :
    ∃ c', insertIntersection crosses c y = ok c' ∧ Good op pts b fc f t recs c' ∧ (∀ k ∈ c.known, k ∈ c'.known) ∧ ∀ k ∈ y.ids, k ∈ c'.vertexIds := by
  obtain ⟨u, hu, hcu, ws, hc⟩ := hf.sound y hy
  cases hl : y.ids.length with
  | zero =>
    have e : y.ids = [] := List.length_eq_zero_iff.1 hl
    refine ⟨c, ?_, hg, fun k hk => hk, by rw [e]; simp⟩
    unfold insertIntersection
    rw [hl]
    rfl
  | succ n =>
    have hlt : 0 < y.ids.length := by omega
    have hlt' : 0 < y.syms.length := by rw [hc.syms]; exact hlt
    have e1 : y.ids[0]? = some y.ids[0] := List.getElem?_eq_getElem hlt
    have e2 : y.syms[0]? = some y.syms[0] := List.getElem?_eq_getElem hlt'
    obtain ⟨c1, v, hins, hg1, hv, hvm, hk1⟩ := good_insert hg hy hu hcu hc e1 e2
    have hs1 := good_same hg hg1
    have hv1 : c1.info v = y.ids[0] := by rw [hs1.info]; exact hv
    obtain ⟨c2, p, hloop, hg2, hk2, hp2, hm2, hall⟩ := good_loop hcr hf hy hu hcu hc n 0 c1 v v (by omega) hg1 (by rw [hv1]; exact e1) (by rw [hv1]; exact hvm)
    have hs2 := good_same hg1 hg2
    have hv2 : c2.info v = y.ids[0] := by rw [hs2.info]; exact hv1
    have hm0 : y.ids[0] ∈ c2.vertexIds := vertexIds_mono hs2 hk2 hvm
    have hids : ∀ k ∈ y.ids, k ∈ c2.vertexIds := by
      intro k hk
      obtain ⟨j, hj⟩ := List.getElem?_of_mem hk
      by_cases e : j = 0
      · subst e; rw [e1] at hj; cases hj; exact hm0
      · exact hall j k (by omega) hj
    have hstep : insertLoop crosses y y.ids.length 0 c none none = ok (c2, some v, some p) := by
      rw [hl]
      unfold insertLoop
      simp only [at!, e1, e2]
      show ((c.insert _ _).bind fun r => _) = _
      rw [hins]
      exact hloop
    by_cases h2 : y.ids.length > 2
    · rw [Nat.zero_add] at hp2
      obtain ⟨x, z, hx, hz, hj⟩ := cutter_next hc hp2 e1 (by rw [hl, Nat.mod_self]) (by omega)
      obtain ⟨c3, hcon, hg3, hk3⟩ := good_edge (i := p) (j := v) hcr hf hg2 hm2 (by rw [hv2]; exact hm0) hx (by rw [hv2]; exact hz) ⟨hf.apart, u, hu, hcu, hj⟩
      refine ⟨c3, ?_, hg3, fun k hk => by rw [hk3]; exact hk2 k (hk1 k hk), fun k hk => vertexIds_mono (good_same hg2 hg3) (by rw [hk3]; exact fun k hk => hk) (hids k hk)⟩
      unfold insertIntersection
      rw [hstep]
      show (if y.ids.length > 2 then c2.insertConstraint crosses p v else ok c2) = _
      rw [if_pos h2, hcon]
    · refine ⟨c2, ?_, hg2, fun k hk => hk2 k (hk1 k hk), hids⟩
      unfold insertIntersection
      rw [hstep]
      show (if y.ids.length > 2 then c2.insertConstraint crosses p v else ok c2) = _
      rw [if_neg h2]

theorem good_range (hcr : ∀ (c : Cdt) i j, crosses c i j = true → ({ c with constraints := c.constraints ++ [(i, j)] } : Cdt).Expected pts t → False) (hf : Face op pts b fc f t recs) :
    ∀ (rs : List Info), (∀ y ∈ rs, y ∈ recs) → ∀ c, Good op pts b fc f t recs c → ∃ c', insertRange crosses rs c = ok c' ∧ Good op pts b fc f t recs c' ∧ (∀ k ∈ c.known, k ∈ c'.known) ∧ (∀ q ∈ c.pairs, q ∈ c'.pairs) ∧
      (∀ y ∈ rs, ∀ k ∈ y.ids, k ∈ c'.vertexIds) ∧ ∀ y ∈ rs, 2 ≤ y.ids.length → ∀ k l, Follows y.ids k l → (k, l) ∈ c'.pairs ∨ (l, k) ∈ c'.pairs := by
  intro rs
  induction rs with
  | nil => intro _ c hg; exact ⟨c, rfl, hg, fun k hk => hk, fun q hq => hq, by simp, by simp⟩
  | cons y rs ih =>
    intro hrs c hg
    have hy := hrs y (by simp)
    obtain ⟨c1, h1, hg1, hk1, hi1⟩ := good_record hcr hf hy hg
    obtain ⟨c2, h2, hg2, hk2, hq2, hi2, hj2⟩ := ih (fun y hy => hrs y (by simp [hy])) c1 hg1
    obtain ⟨u, hu, hcu, ws, hc⟩ := hf.sound y hy
    have hnew : ∃ new, c1.pairs = c.pairs ++ new ∧ ∀ e, (∃ u v, (u, v) ∈ new ∧ IsEdgeOf e u v) ↔ 2 ≤ y.ids.length ∧ ∃ u v, Follows y.ids u v ∧ IsEdgeOf e u v := by
      rcases Props.C63_constraints crosses c y hc.syms (fun i id sym a b => hg.same.fits (hc.fits i id sym a b)) with e | ⟨t', new, e, e1, -, e2⟩
      · rw [h1] at e; cases e
      · rw [h1] at e; cases e; exact ⟨new, e1, e2⟩
    obtain ⟨new, e1, e2⟩ := hnew
    refine ⟨c2, ?_, hg2, fun k hk => hk2 k (hk1 k hk), fun q hq => hq2 q (by rw [e1]; exact List.mem_append_left _ hq), ?_, ?_⟩
    · show ((insertIntersection crosses c y).bind fun r => _) = _
      rw [h1]; exact h2
    · intro y' hy' k hk
      rcases List.mem_cons.1 hy' with rfl | hy'
      · exact vertexIds_mono (good_same hg1 hg2) hk2 (hi1 k hk)
      · exact hi2 y' hy' k hk
    · intro y' hy' hlen k l hkl
      rcases List.mem_cons.1 hy' with rfl | hy'
      · obtain ⟨k', l', hm, he⟩ := (e2 (makeEdge k l)).2 ⟨hlen, k, l, hkl, (makeEdge_iff _ _ _).1 rfl⟩
        have hin : (k', l') ∈ c2.pairs := hq2 _ (by rw [e1]; exact List.mem_append_right _ hm)
        have he' := (makeEdge_iff (makeEdge k l) k l).1 rfl
        rcases he.2 with a | a <;> rcases he'.2 with a' | a' <;> rw [a'] at a <;> cases a
        · exact .inl hin
        · exact .inr hin
        · exact .inr hin
        · exact .inl hin
      · exact hj2 y' hy' hlen k l hkl

/-- Segments between corners of records are constraints. -/
theorem seen_segments (hf : Seen op pts b fc f t recs) {rs : List Info} (hrs : ∀ y, y ∈ rs ↔ y ∈ recs) {c : Cdt} (hseg : ∀ y ∈ rs, 2 ≤ y.ids.length → ∀ k l, Follows y.ids k l → (k, l) ∈ c.pairs ∨ (l, k) ∈ c.pairs) :
    ∀ x y, CutSegment op b t x y → c.Constraint pts x y ∨ c.Constraint pts y x := by
  rintro x z ⟨-, u, hu, hcu, hj⟩
  obtain ⟨y, hy, ws, hc⟩ := hf.complete u hu hcu ⟨x, Cutting.extreme_iff.1 hj.1⟩
  have key : ∀ x z, Next ws x z → 2 ≤ ws.length → c.Constraint pts x z ∨ c.Constraint pts z x := by
    rintro x z ⟨i, hi, hi'⟩ hlen
    have hlt : i < y.ids.length := by rw [← hc.length]; exact (List.getElem?_eq_some_iff.1 hi).1
    have hlt' : (i + 1) % y.ids.length < y.ids.length := Nat.mod_lt _ (by omega)
    obtain ⟨w, w1, w2⟩ := hc.points i _ (List.getElem?_eq_getElem hlt)
    obtain ⟨w', w1', w2'⟩ := hc.points _ _ (List.getElem?_eq_getElem hlt')
    rw [hi] at w2; cases w2
    rw [hc.length, w2'] at hi'; cases hi'
    have toC : ∀ {k l : Nat} {x z : P3}, (k, l) ∈ c.pairs → pts[k]? = some x → pts[l]? = some z → c.Constraint pts x z := by
      intro k l x z hm hx hz
      obtain ⟨e, he, hee⟩ := List.mem_map.1 hm
      cases hee
      exact ⟨e, he, hx, hz⟩
    rcases hseg y ((hrs y).2 hy) (by rw [← hc.length]; exact hlen) _ _ ⟨i, List.getElem?_eq_getElem hlt, List.getElem?_eq_getElem hlt'⟩ with h | h
    · exact .inl (toC h w1 w1')
    · exact .inr (toC h w1' w1)
  obtain ⟨hlen, h | h⟩ := (hc.joined x z).1 hj
  · exact key x z h hlen
  · exact (key z x h hlen).symm

/-- The triangulation of a face with records: it never throws, and its vertices and constraints are those of the face. -/
theorem build_ok (hcr : ∀ (c : Cdt) i j, crosses c i j = true → ({ c with constraints := c.constraints ++ [(i, j)] } : Cdt).Expected pts t → False) (hf : Face op pts b fc f t recs) {rs : List Info} (hrs : ∀ y, y ∈ rs ↔ y ∈ recs) :
    ∃ c, insertRange crosses rs (Cdt.new fc f.a f.b f.c) = ok c ∧ c.Expected pts t ∧ Good op pts b fc f t recs c ∧
      (∀ x, (∃ id ∈ c.known, pts[id]? = some x) ∨ x ∈ t.toList ↔ CutVertex op b t x ∨ x ∈ t.toList) ∧
      (∀ x y, c.Constraint pts x y → CutSegment op b t x y) ∧ ∀ x y, CutSegment op b t x y → c.Constraint pts x y ∨ c.Constraint pts y x := by
  obtain ⟨c, h1, hg, -, -, hids, hseg⟩ := good_range hcr hf rs (fun y hy => (hrs y).1 hy) _ good_new
  have hex := good_expected hf hg
  refine ⟨c, h1, hex, hg, ?_, fun x y h => good_constraint hg h, ?_⟩
  · intro x
    constructor
    · rintro (⟨id, hid, hx⟩ | h)
      · obtain ⟨-, w, e, -, u, hu, hcu, hq⟩ := hg.known id hid
        rw [hx] at e; cases e
        exact .inl ⟨hf.apart, u, hu, hcu, Cutting.extreme_iff.2 hq⟩
      · exact .inr h
    · rintro (⟨-, u, hu, hcu, hx⟩ | h)
      · have hq : Q t u x := Cutting.extreme_iff.1 hx
        obtain ⟨y, hy, ws, hc⟩ := hf.complete u hu hcu ⟨x, hq⟩
        obtain ⟨i, hi⟩ := List.getElem?_of_mem ((hc.all x).2 hq)
        have hlt : i < y.ids.length := by rw [← hc.length]; exact (List.getElem?_eq_some_iff.1 hi).1
        obtain ⟨w, w1, w2⟩ := hc.points i _ (List.getElem?_eq_getElem hlt)
        rw [hi] at w2; cases w2
        have hm := hids y ((hrs y).2 hy) _ (List.getElem_mem hlt)
        obtain ⟨k1, k2, k3⟩ := hex.corners
        unfold Cdt.vertexIds at hm
        simp only [List.mem_cons] at hm
        rcases hm with e | e | e | e
        · right; rw [e, k1] at w1; cases w1; simp [Tri.toList]
        · right; rw [e, k2] at w1; cases w1; simp [Tri.toList]
        · right; rw [e, k3] at w1; cases w1; simp [Tri.toList]
        · exact .inl ⟨_, e, w1⟩
      · exact .inr h
  · exact seen_segments hf.toSeen hrs hseg

end Kigumi.Corefine
