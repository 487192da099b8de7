import Verif.Proofs.Cdts

/-! # All triangulations of an operand -/
namespace Kigumi.Corefine
open Kigumi Outcome Geo Spec.Triangles Spec.Side
open Kigumi.Spec (SameTri HasCorners FaceCorners Follows IsEdgeOf)
open Kigumi.Side (Ok ok_of_proper)
open Kigumi.Cutting (Q Next)
variable {op : Bool → List (Tri P3)} {D : Type} {s : Bool → Soup P3 D} {pts : List P3} {infos : List Info}

/-- The face of the operand in a region, and the face of a record. -/
def codeOf (b : Bool) : Region.Code := if b then Region.LF else Region.RF
def keyOf (b : Bool) (x : Info) : Nat := if b then x.left else x.right

theorem refers_more {f : Tri Nat} {t : Tri P3} (h : Refers (base s) f t) (hp : ∃ new, pts = base s ++ new) : Refers pts f t := by
  obtain ⟨new, rfl⟩ := hp
  have : ∀ {i : Nat} {p : P3}, (base s)[i]? = some p → (base s ++ new)[i]? = some p := by
    intro i p h
    rw [List.getElem?_append_left (List.getElem?_eq_some_iff.1 h).1]; exact h
  exact ⟨this h.1, this h.2.1, this h.2.2⟩

/-- A record as seen from one operand. -/
theorem record_cutter (h : Soups op s) (hP : Points op s pts infos) (b : Bool) {y : Info} (hy : y ∈ infos) : ∃ t u f ws, (op b)[keyOf b y]? = some t ∧ (op !b)[keyOf (!b) y]? = some u ∧ ¬ Coincides op b t ∧ ¬ Coincides op (!b) u ∧
    faceIds (s b).faces (idsOf s b) (keyOf b y) = ok f ∧ Cutter pts (codeOf b) f t u y ws := by
  obtain ⟨t, u, l, r, hp⟩ := hP.records y hy
  cases b
  · obtain ⟨ws, hc⟩ := cutter_right h hp
    exact ⟨u, t, r, ws, hp.right, hp.left, hp.apartR, hp.apartL, hp.rightIds, hc⟩
  · obtain ⟨ws, hc⟩ := cutter_left h hp
    exact ⟨t, u, l, ws, hp.left, hp.right, hp.apartL, hp.apartR, hp.leftIds, hc⟩

theorem record_complete (hP : Points op s pts infos) {b : Bool} {i j : Nat} {t u : Tri P3} {x : P3} (ht : (op b)[i]? = some t) (hu : (op !b)[j]? = some u) (ct : ¬ Coincides op b t) (cu : ¬ Coincides op (!b) u) (h1 : In t x) (h2 : In u x) :
    ∃ y ∈ infos, keyOf b y = i ∧ keyOf (!b) y = j := by
  cases b
  · obtain ⟨y, hy, e1, e2⟩ := hP.complete j i u t x hu ht cu ct h2 h1
    exact ⟨y, hy, e2, e1⟩
  · exact hP.complete i j t u x ht hu ct cu h1 h2

theorem seen_of (h : Soups op s) (hP : Points op s pts infos) {b : Bool} {fi : Nat} {t : Tri P3} {f : Tri Nat} (ht : (op b)[fi]? = some t) (hf : faceIds (s b).faces (idsOf s b) fi = ok f) (hne : ∃ x ∈ infos, keyOf b x = fi) :
    Seen op pts b (codeOf b) f t (infos.filter (fun x => keyOf b x = fi)) := by
  have rec' : ∀ y ∈ infos, keyOf b y = fi → ¬ Coincides op b t ∧ ∃ u ws, (op !b)[keyOf (!b) y]? = some u ∧ ¬ Coincides op (!b) u ∧ Cutter pts (codeOf b) f t u y ws := by
    intro y hy e
    obtain ⟨t', u, f', ws, h1, h2, h3, h4, h5, h6⟩ := record_cutter h hP b hy
    rw [e] at h1 h5
    rw [ht] at h1; cases h1
    rw [hf] at h5; cases h5
    exact ⟨h3, u, ws, h2, h4, h6⟩
  have hap : ¬ Coincides op b t := by
    obtain ⟨x, hx, e⟩ := hne
    exact (rec' x hx e).1
  refine ⟨h.proper b t (List.mem_of_getElem? ht), hap, refers_more (face_ids_eq h ht hf) hP.more, ?_, ?_⟩
  · intro y hy
    obtain ⟨hy, e⟩ := List.mem_filter.1 hy
    obtain ⟨-, u, ws, h2, h4, h6⟩ := rec' y hy (by simpa using e)
    exact ⟨u, List.mem_of_getElem? h2, h4, ws, h6⟩
  · rintro u hu hcu ⟨x, hx⟩
    obtain ⟨j, hj⟩ := List.getElem?_of_mem hu
    obtain ⟨y, hy, e1, e2⟩ := record_complete hP ht hj hap hcu hx.1.1 hx.1.2
    obtain ⟨-, u', ws, h2, h4, h6⟩ := rec' y hy e1
    rw [e2, hj] at h2; cases h2
    exact ⟨y, List.mem_filter.2 ⟨hy, by simpa using e1⟩, ws, h6⟩

theorem face_of (h : Soups op s) (hP : Points op s pts infos) {b : Bool} (hcx : Complex (op !b)) {fi : Nat} {t : Tri P3} {f : Tri Nat} (ht : (op b)[fi]? = some t) (hf : faceIds (s b).faces (idsOf s b) fi = ok f) (hne : ∃ x ∈ infos, keyOf b x = fi) :
    Face op pts b (codeOf b) f t (infos.filter (fun x => keyOf b x = fi)) := by
  refine ⟨seen_of h hP ht hf hne, hcx, ?_⟩
  intro x hx y hy
  obtain ⟨hx', ex⟩ := List.mem_filter.1 hx
  obtain ⟨hy', ey⟩ := List.mem_filter.1 hy
  have e : keyOf b x = keyOf b y := by rw [show keyOf b x = fi by simpa using ex, show keyOf b y = fi by simpa using ey]
  cases b
  · exact hP.inj x hx' y hy' (.inl hcx) (.inr e)
  · exact hP.inj x hx' y hy' (.inr e) (.inl hcx)

/-- The triangulation of a face. -/
structure Entry (op : Bool → List (Tri P3)) (pts : List P3) (infos : List Info) (b : Bool) (t : Tri P3) (f : Tri Nat) (c : Cdt) : Prop where
  corners : Refers pts f t ∧ c.a = f.a ∧ c.b = f.b ∧ c.c = f.c
  expected : c.Expected pts t
  known : ∀ id ∈ c.known, ∃ y ∈ infos, id ∈ y.ids
  vertices : ∀ x, (∃ id ∈ c.known, pts[id]? = some x) ∨ x ∈ t.toList ↔ CutVertex op b t x ∨ x ∈ t.toList
  sound : ∀ x y, c.Constraint pts x y → CutSegment op b t x y
  complete : ∀ x y, CutSegment op b t x y → c.Constraint pts x y ∨ c.Constraint pts y x

/-- The triangulations of an operand. -/
structure Built (op : Bool → List (Tri P3)) (s : Bool → Soup P3 D) (pts : List P3) (infos : List Info) (b : Bool) (m : Slots) : Prop where
  none : ∀ fi, (¬ ∃ x ∈ infos, keyOf b x = fi) → m fi = none
  some : ∀ fi, (∃ x ∈ infos, keyOf b x = fi) → ∃ t f c, (op b)[fi]? = some t ∧ faceIds (s b).faces (idsOf s b) fi = ok f ∧ m fi = some (some c) ∧ Entry op pts infos b t f c

theorem faceIds_inv {faces : List (Tri Nat)} {ids : List Nat} {fi : Nat} {f g : Tri Nat} (h : faceIds faces ids fi = ok g) (hf : faces[fi]? = some f) : ids[f.a]? = some g.a ∧ ids[f.b]? = some g.b ∧ ids[f.c]? = some g.c := by
  unfold faceIds at h
  simp only [at!, hf, ok_bind] at h
  cases ha : ids[f.a]? with
  | none => rw [ha] at h; cases h
  | some a =>
    cases hb : ids[f.b]? with
    | none => rw [ha, hb] at h; cases h
    | some b =>
      cases hc : ids[f.c]? with
      | none => rw [ha, hb, hc] at h; cases h
      | some c => rw [ha, hb, hc] at h; cases h; exact ⟨rfl, rfl, rfl⟩

variable {E : Env}

theorem entry_ok (h : Soups op s) (hE : E.Valid op) (hP : Points op s pts infos) {b : Bool} (hcx : Complex (op !b)) {fi : Nat} (hne : ∃ x ∈ infos, keyOf b x = fi) {rs : List Info} (hrs : rs.Perm (infos.filter fun x => keyOf b x = fi)) :
    ∃ t g f c, (op b)[fi]? = some t ∧ (s b).faces[fi]? = some g ∧ (idsOf s b)[g.a]? = some f.a ∧ (idsOf s b)[g.b]? = some f.b ∧ (idsOf s b)[g.c]? = some f.c ∧ faceIds (s b).faces (idsOf s b) fi = ok f ∧
      insertRange (E.crosses pts) rs (Cdt.new (codeOf b) f.a f.b f.c) = ok c ∧ Entry op pts infos b t f c := by
  have ht : ∃ t, (op b)[fi]? = some t := by
    obtain ⟨x, hx, e⟩ := hne
    obtain ⟨t, _, _, _, h1, -⟩ := record_cutter h hP b hx
    rw [e] at h1; exact ⟨t, h1⟩
  obtain ⟨t, ht⟩ := ht
  obtain ⟨g, f, hg, i1, i2, i3, hf, -⟩ := face_ids h ht
  have hface := face_of h hP hcx ht hf hne
  obtain ⟨c, h1, h2, h3, h4, h5, h6⟩ := build_ok (crosses := E.crosses pts) (fun c i j => hE.crosses pts c i j t) hface (fun y => hrs.mem_iff)
  obtain ⟨-, e2, e3, e4⟩ := h3.same
  refine ⟨t, g, f, c, ht, hg, i1, i2, i3, hf, h1, ⟨⟨hface.refers, e2, e3, e4⟩, h2, ?_, h4, h5, h6⟩⟩
  intro id hid
  obtain ⟨⟨y, hy, hi⟩, -⟩ := h3.known id hid
  exact ⟨y, (List.mem_filter.1 hy).1, hi⟩

theorem buildBody_ok (h : Soups op s) (hE : E.Valid op) (hP : Points op s pts infos) {b : Bool} (hcx : Complex (op !b)) {x : Info} {xs : List Info} (hx : x ∈ infos) (hrs : (x :: xs).Perm (infos.filter fun y => keyOf b y = keyOf b x)) :
    ∃ c, buildBody (E.crosses pts) (codeOf b) (keyOf b) (s b).faces (idsOf s b) (x :: xs) = ok (keyOf b x, c) := by
  obtain ⟨t, g, f, c, -, hg, i1, i2, i3, -, hr, -⟩ := entry_ok h hE hP hcx ⟨x, hx, rfl⟩ hrs
  refine ⟨c, ?_⟩
  simp only [buildBody, at!, hg, i1, i2, i3, ok_bind, hr]

/-- Building the triangulations of an operand never throws. -/
theorem build_all (h : Soups op s) (hE : E.Valid op) (hP : Points op s pts infos) {b : Bool} (hcx : Complex (op !b)) {sorted : List Info} (hp : sorted.Perm infos) (hs : sorted.Pairwise (fun x y => ¬ keyOf b y < keyOf b x)) {culprit : String} {o : Outcome Slots}
    (ho : buildAll E pts (codeOf b) (keyOf b) (s b).faces (idsOf s b) culprit sorted o) : ∃ m, o = ok m ∧ Built op s pts infos b m := by
  have hs' : sorted.Pairwise (fun x y => keyOf b x ≤ keyOf b y) := hs.imp (fun h => by omega)
  obtain ⟨h1, -, -⟩ := ranges_spec (keyOf b) _ sorted (Nat.le_refl _) hs'
  have exc : ∀ r, ParallelDo.Returns (buildLoop (E.crosses pts) (codeOf b) (keyOf b) (s b).faces (idsOf s b) (ranges (keyOf b) sorted)) E.configured E.hardware () r → r.exc = none := by
    intro r hr
    obtain ⟨c1, c2, c3, -⟩ := Props.C14_exceptions _ hE.threads hr
    cases he : r.exc with
    | none => rfl
    | some e =>
      exfalso
      rcases c3 e (c2 e he) with ⟨i, st, hi, hb⟩ | ⟨hp, -⟩
      · have hi' : i < (ranges (keyOf b) sorted).length := hi
        obtain ⟨x, xs, e1, e2⟩ := h1 _ (List.getElem_mem hi')
        have hx : x ∈ sorted := by
          have : x ∈ (ranges (keyOf b) sorted)[i] := by rw [e1]; simp
          rw [e2] at this
          exact (List.mem_filter.1 this).1
        obtain ⟨c, hc⟩ := buildBody_ok h hE hP (b := b) hcx (hp.mem_iff.1 hx) (xs := xs) (by rw [← e1, e2]; exact hp.filter _)
        simp only [buildLoop, List.getElem?_eq_getElem hi', e1, hc] at hb
        cases hb
      · cases hp
  have built : ∀ r, ParallelDo.Returns (buildLoop (E.crosses pts) (codeOf b) (keyOf b) (s b).faces (idsOf s b) (ranges (keyOf b) sorted)) E.configured E.hardware () r →
      Built op s pts infos b (store (E.crosses pts) (codeOf b) (keyOf b) (s b).faces (idsOf s b) (ranges (keyOf b) sorted) r.log (emplaceAll (keyOf b) (ranges (keyOf b) sorted) (fun _ => none))) := by
    intro r hr
    have hg := Props.C65_grouping (E.crosses pts) (codeOf b) (keyOf b) (s b).faces (idsOf s b) infos sorted hp hs hE.threads hr (exc r hr)
    refine ⟨fun fi hn => (hg fi).1 hn, fun fi hne => ?_⟩
    obtain ⟨g, a, b', c, recs, cdt, hgf, ha, hb, hc, hperm, hins, hst⟩ := (hg fi).2 hne
    obtain ⟨t, g', f, cdt', ht, hg', i1, i2, i3, hf, hr', hent⟩ := entry_ok h hE hP hcx hne hperm
    rw [hgf] at hg'; cases hg'
    rw [ha] at i1; cases i1
    rw [hb] at i2; cases i2
    rw [hc] at i3; cases i3
    rw [hins] at hr'; cases hr'
    exact ⟨t, f, cdt, ht, hf, hst, hent⟩
  unfold buildAll Outcomes.andThen Outcomes.rename Outcomes.parallel Outcomes.one at ho
  rcases ho with ⟨r, ⟨o', ⟨r', hr, ho'⟩, e⟩, rfl⟩ | ⟨m, ⟨o', ⟨r', hr, ho'⟩, e⟩, -⟩ | ⟨m, ⟨o', ⟨r', hr, ho'⟩, e⟩, -⟩
  · rw [exc r' hr] at ho'; subst ho'; cases e
    exact ⟨_, rfl, built _ hr⟩
  · rw [exc r' hr] at ho'; subst ho'; cases e
  · rw [exc r' hr] at ho'; subst ho'; cases e

end Kigumi.Corefine
