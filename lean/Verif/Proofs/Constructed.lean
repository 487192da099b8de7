import Verif.Proofs.Built
import Verif.Proofs.Laid
import Verif.Proofs.Ties

/-! # The constructor and the mixed faces -/
namespace Kigumi.Corefine
open Kigumi Outcome Geo Spec.Triangles Spec.Side
open Kigumi.Spec (SameTri HasCorners FaceCorners Follows IsEdgeOf IsBorder operandTris)
open Kigumi.Side (Ok ok_of_proper)
open Kigumi.Cutting (Q Next Laid Cuts borderEdge_swap)
variable {op : Bool → List (Tri P3)} {D : Type} {s : Bool → Soup P3 D} {pts : List P3} {infos : List Info} {E : Env}

theorem points_perm {infos' : List Info} (h : Points op s pts infos) (hp : infos'.Perm infos) : Points op s pts infos' where
  more := h.more
  records x hx := h.records x (hp.mem_iff.1 hx)
  complete i j t u y h1 h2 h3 h4 h5 h6 := by
    obtain ⟨x, hx, e⟩ := h.complete i j t u y h1 h2 h3 h4 h5 h6
    exact ⟨x, hp.mem_iff.2 hx, e⟩
  inj x hx y hy := h.inj x (hp.mem_iff.1 hx) y (hp.mem_iff.1 hy)
  vertex x hx := h.vertex x (hp.mem_iff.1 hx)

theorem built_perm {infos' : List Info} {b : Bool} {m : Slots} (h : Built op s pts infos b m) (hp : infos'.Perm infos) : Built op s pts infos' b m := by
  have e : ∀ fi, (∃ x ∈ infos', keyOf b x = fi) ↔ ∃ x ∈ infos, keyOf b x = fi := fun fi => by simp only [hp.mem_iff]
  refine ⟨fun fi hn => h.none fi (by rwa [← e]), fun fi hs => ?_⟩
  obtain ⟨t, f, c, h1, h2, h3, h4⟩ := h.some fi ((e fi).1 hs)
  refine ⟨t, f, c, h1, h2, h3, h4.corners, h4.expected, fun id hid => ?_, h4.vertices, h4.sound, h4.complete⟩
  obtain ⟨y, hy, hi⟩ := h4.known id hid
  exact ⟨y, hp.mem_iff.2 hy, hi⟩

/-- What the constructor leaves. -/
structure Constructed (op : Bool → List (Tri P3)) (s : Bool → Soup P3 D) (st : State) : Prop where
  leftIds : st.leftIds = idsOf s true
  rightIds : st.rightIds = idsOf s false
  tags : Tags op (both st.leftTags st.rightTags)
  points : Points op s st.points st.infos
  left : Built op s st.points st.infos true st.leftMap
  right : Built op s st.points st.infos false st.rightMap

/-- The constructor never throws for operands without self-intersections. -/
theorem construct_ok (h : Operands op s) (hE : E.Valid op) {o : Outcome State} (ho : construct E (s true) (s false) o) : ∃ st, o = ok st ∧ Constructed op s st := by
  have step : ∀ {α β : Type} {x : Outcomes α} {f : α → Outcomes β} {o : Outcome β} {p : α → Prop}, Outcomes.andThen x f o → (∀ o', x o' → ∃ a, o' = ok a ∧ p a) → ∃ a, p a ∧ f a o := by
    rintro α β x f o p (⟨a, ha, hf⟩ | ⟨e, he, -⟩ | ⟨e, he, -⟩) hx
    · obtain ⟨a', e, hp⟩ := hx _ ha
      cases e; exact ⟨a, hp, hf⟩
    · obtain ⟨a', e, hp⟩ := hx _ he; cases e
    · obtain ⟨a', e, hp⟩ := hx _ he; cases e
  unfold construct at ho
  obtain ⟨tags, ht, ho⟩ := step (p := fun tags => Tags op (both tags.1 tags.2)) ho (by
    intro o' ho'
    exact tags_run h.soups ho')
  obtain ⟨pairs, hp, ho⟩ := step (p := fun pairs => Pairs op pairs) ho (by
    rintro o' ⟨r, hr, rfl⟩
    obtain ⟨h1, h2⟩ := pairs_ok hE ht hr
    exact ⟨r.acc, by rw [h1], h2⟩)
  obtain ⟨found, ⟨hf, hnil⟩, ho⟩ := step (p := fun found => Records op s found.acc ∧ ∀ x ∈ found.acc, x.ids = []) ho (by
    rintro o' ⟨r, hr, rfl⟩
    obtain ⟨h1, h2, h3⟩ := records_ok h.soups hp hE.threads hr
    exact ⟨r, by rw [h1], h2, h3⟩)
  obtain ⟨made, hm, ho⟩ := step (p := fun made => Points op s made.1.points.points made.2) ho (by
    rintro o' rfl
    obtain ⟨st, out, h1, h2⟩ := points_ok h.soups hE.lines hE.planes hf hnil
    exact ⟨(st, out), h1, h2⟩)
  obtain ⟨byLeft, ⟨hl1, hl2⟩, ho⟩ := step (p := fun l => l.Perm made.2 ∧ l.Pairwise (fun x y => ¬ keyOf true y < keyOf true x)) ho (by
    rintro o' ⟨l, hl, rfl⟩
    exact ⟨l, rfl, hl⟩)
  obtain ⟨lm, hlm, ho⟩ := step (p := fun m => Built op s made.1.points.points made.2 true m) ho (fun o' ho' => build_all (b := true) h.soups hE hm (h.complex false) hl1 hl2 ho')
  obtain ⟨byRight, ⟨hr1, hr2⟩, ho⟩ := step (p := fun l => l.Perm byLeft ∧ l.Pairwise (fun x y => ¬ keyOf false y < keyOf false x)) ho (by
    rintro o' ⟨l, hl, rfl⟩
    exact ⟨l, rfl, hl⟩)
  obtain ⟨rm, hrm, ho⟩ := step (p := fun m => Built op s made.1.points.points made.2 false m) ho (fun o' ho' => build_all (b := false) h.soups hE hm (h.complex true) (hr1.trans hl1) hr2 ho')
  cases ho
  have hp' := hr1.trans hl1
  exact ⟨_, rfl, rfl, rfl, ht, points_perm hm hp', built_perm hlm hp', built_perm hrm hp'⟩

/-! ## Vertices -/

/-- The ids that vertices of the mixed faces have. -/
def VertexId (op : Bool → List (Tri P3)) (s : Bool → Soup P3 D) (infos : List Info) (i : Nat) : Prop :=
  (∃ y ∈ infos, i ∈ y.ids) ∨ ∃ b, ∃ t ∈ op b, ∃ v ∈ t.toList, (base s)[i]? = some v

theorem vertex_inj (h : ∀ b, Complex (op b)) (hP : Points op s pts infos) {i j : Nat} (hi : VertexId op s infos i) (hj : VertexId op s infos j) (e : pts[i]? = pts[j]?) : i = j := by
  have up : ∀ {i : Nat} {v : P3}, (base s)[i]? = some v → pts[i]? = some v := by
    intro i v h
    obtain ⟨new, rfl⟩ := hP.more
    rw [List.getElem?_append_left (List.getElem?_eq_some_iff.1 h).1]; exact h
  rcases hi with ⟨x, hx, hi⟩ | ⟨b, t, ht, v, hv, hi⟩ <;> rcases hj with ⟨y, hy, hj⟩ | ⟨b', t', ht', v', hv', hj⟩
  · exact hP.inj x hx y hy (.inl (h true)) (.inl (h false)) i hi j hj e
  · exact hP.vertex x hx i hi b' (h b') t' ht' v' hv' j hj (by rw [e]; exact up hj)
  · exact (hP.vertex y hy j hj b (h b) t ht v hv i hi (by rw [← e]; exact up hi)).symm
  · have := up hi; rw [e, up hj] at this; cases this
    exact get_inj (base_nodup s) hi hj

/-! ## Pieces -/

/-- The faces `gs` are the pieces `ps` of the triangle. -/
structure Cut (ord : Tri P3 → P3 → P3 → Prop) (op : Bool → List (Tri P3)) (s : Bool → Soup P3 D) (pts : List P3) (infos : List Info) (b : Bool) (t : Tri P3) (gs : List (Tri Nat)) (ps : List (Tri P3)) : Prop where
  corners : HasCorners pts gs ps
  tri : Triangulates t (CutVertex op b t) (CutSegment op b t) ps
  ids : ∀ g ∈ gs, ∀ v ∈ g.toList, VertexId op s infos v
  ties : TiesBy (ord t) t (CutVertex op b t) (CutSegment op b t) ps

theorem pieces_cut {ord : Tri P3 → P3 → P3 → Prop} (h : Operands op s) (hP : Points op s pts infos) {b : Bool} {m : Slots} (hm : Built op s pts infos b m) {finite : Cdt → List (Tri Nat)} (hfin : ∀ c fi f, m fi = some (some c) → c.Expected pts f → c.CorrectBy ord pts f (finite c))
    {fi : Nat} {t : Tri P3} (ht : (op b)[fi]? = some t) {gs : List (Tri Nat)} (hg : Props.Pieces finite (s b).faces m (idsOf s b) fi gs) : ∃ ps, Cut ord op s pts infos b t gs ps := by
  obtain ⟨g, f, hgf, i1, i2, i3, hf, hbase⟩ := face_ids h.soups ht
  have hcor : ∀ v ∈ f.toList, VertexId op s infos v := by
    intro v hv
    right
    obtain ⟨r1, r2, r3⟩ := hbase
    simp only [Tri.toList, List.mem_cons, List.not_mem_nil, or_false] at hv
    rcases hv with rfl | rfl | rfl
    · exact ⟨b, t, List.mem_of_getElem? ht, t.a, by simp [Tri.toList], r1⟩
    · exact ⟨b, t, List.mem_of_getElem? ht, t.b, by simp [Tri.toList], r2⟩
    · exact ⟨b, t, List.mem_of_getElem? ht, t.c, by simp [Tri.toList], r3⟩
  by_cases hne : ∃ x ∈ infos, keyOf b x = fi
  · obtain ⟨t', f', c, ht', hf', hc, hent⟩ := hm.some fi hne
    rw [ht] at ht'; cases ht'
    rw [hf] at hf'; cases hf'
    have hgs : gs = finite c := by
      rcases hg with ⟨c', e, hgs⟩ | ⟨e, -⟩
      · rw [hc] at e; cases e; exact hgs
      · rw [hc] at e; cases e
    subst hgs
    obtain ⟨hv, ps, hps, htri, htie⟩ := hfin c fi t hc hent.expected
    refine ⟨ps, hps, Cutting.triangulates_congr htri hent.vertices (fun {c d} hcd => .inl (hent.sound c d hcd)) (fun {c d} hcd => hent.complete c d hcd), ?_,
      Cutting.ties_congr htie (fun x hx => (hent.vertices x).2 (.inl hx)) (fun hcd => .inl (hent.sound _ _ hcd))⟩
    intro g' hg' v hv'
    have := hv g' hg' v hv'
    unfold Cdt.vertexIds at this
    obtain ⟨-, e1, e2, e3⟩ := hent.corners
    simp only [List.mem_cons, e1, e2, e3] at this
    rcases this with e | e | e | e
    · exact hcor v (by simp [Tri.toList, e])
    · exact hcor v (by simp [Tri.toList, e])
    · exact hcor v (by simp [Tri.toList, e])
    · exact .inl (hent.known v e)
  · have hgs : gs = [f] := by
      rcases hg with ⟨c', e, -⟩ | ⟨-, g', a, b', c, e, h1, h2, h3, rfl⟩
      · rw [hm.none fi hne] at e; cases e
      · rw [hgf] at e; cases e
        rw [i1] at h1; cases h1
        rw [i2] at h2; cases h2
        rw [i3] at h3; cases h3
        rfl
    subst hgs
    have hno : ∀ u ∈ op (!b), ¬ Coincides op b t → ¬ Coincides op (!b) u → ∀ x, ¬ (In t x ∧ In u x) := by
      intro u hu h1 h2 x hx
      obtain ⟨j, hj⟩ := List.getElem?_of_mem hu
      obtain ⟨y, hy, e, -⟩ := record_complete hP ht hj h1 h2 hx.1 hx.2
      exact hne ⟨y, hy, e⟩
    refine ⟨[t], List.Forall₂.cons (refers_more hbase hP.more) .nil, ?_, ?_, Cutting.ties_self fun x ⟨h1, u, hu, h2, hx⟩ => hno u hu h1 h2 x hx.1⟩
    · refine Cutting.triangulates_self ((h.complex b).proper t (List.mem_of_getElem? ht)) ?_ ?_
      · rintro x ⟨h1, u, hu, h2, hx⟩
        exact hno u hu h1 h2 x hx.1
      · rintro c d ⟨h1, u, hu, h2, hj⟩
        exact absurd hj.1.1 (hno u hu h1 h2 c)
    · intro g' hg' v hv
      simp only [List.mem_cons, List.not_mem_nil, or_false] at hg'
      subst hg'
      exact hcor v hv

/-! ## Assembling -/

section lists
variable {α : Type}

theorem zip_flatMap {β γ : Type} (F : α → List β) (G : α → List γ) : ∀ (L : List α), (∀ x ∈ L, (F x).length = (G x).length) → (L.flatMap F).zip (L.flatMap G) = L.flatMap fun x => (F x).zip (G x)
  | [], _ => rfl
  | x :: L, h => by
    rw [List.flatMap_cons, List.flatMap_cons, List.flatMap_cons, List.zip_append (h x (by simp)), zip_flatMap F G L (fun y hy => h y (by simp [hy]))]

theorem forall₂_flatMap {β γ : Type} {R : β → γ → Prop} (F : α → List β) (G : α → List γ) : ∀ (L : List α), (∀ x ∈ L, List.Forall₂ R (F x) (G x)) → List.Forall₂ R (L.flatMap F) (L.flatMap G)
  | [], _ => .nil
  | x :: L, h => by
    rw [List.flatMap_cons, List.flatMap_cons]
    exact List.rel_append (h x (by simp)) (forall₂_flatMap F G L (fun y hy => h y (by simp [hy])))

theorem flatMap_idxOf {β γ : Type} [DecidableEq β] {ts : List β} (hn : ts.Nodup) {L : List α} (hl : L.length = ts.length) (F : α → List γ) : (ts.flatMap fun t => (L[ts.idxOf t]?).elim [] F) = L.flatMap F := by
  rw [List.flatMap_def, List.flatMap_def]
  congr 1
  apply List.ext_getElem?
  intro i
  rw [List.getElem?_map, List.getElem?_map]
  by_cases hi : i < ts.length
  · have hi' : i < L.length := by omega
    rw [List.getElem?_eq_getElem hi, List.getElem?_eq_getElem hi']
    simp only [Option.map_some, hn.idxOf_getElem i hi, List.getElem?_eq_getElem hi', Option.elim]
  · rw [List.getElem?_eq_none (by omega), List.getElem?_eq_none (by omega)]
    rfl
end lists

theorem once_nodup {ts : List (Tri P3)} (h : Once ts) : ts.Nodup := by
  rw [List.nodup_iff_getElem?_ne_getElem?]
  intro i j hij hj e
  have := h i j ts[i] ts[i] (List.getElem?_eq_getElem (by omega)) (by rw [← e]; exact List.getElem?_eq_getElem (by omega)) (Space.match_refl _)
  omega

theorem isBorder_comm {border : List (Nat × Nat)} {v w : Nat} (h : IsBorder border v w) : IsBorder border w v := by
  unfold IsBorder at *; rwa [Nat.min_comm, Nat.max_comm]

/-- The edges of a record are border edges. -/
theorem border_of (h : Operands op s) (hP : Points op s pts infos) {border edges : List (Nat × Nat)} (he : intersectingEdges infos [] = ok edges) (hb : border.Perm edges) :
    (∀ e ∈ border, e.1 ≠ e.2 ∧ VertexId op s infos e.1 ∧ VertexId op s infos e.2 ∧ ∃ x y, pts[e.1]? = some x ∧ pts[e.2]? = some y ∧ BorderEdge op x y) ∧ ∀ {p q : Nat} {x y : P3}, VertexId op s infos p → VertexId op s infos q → pts[p]? = some x → pts[q]? = some y → BorderEdge op x y → IsBorder border p q := by
  obtain ⟨edges', e1, -, e2⟩ := Props.C63_border infos
  rw [he] at e1; cases e1
  constructor
  · intro e hee
    obtain ⟨r, hr, hlen, k, l, ⟨i, hk, hl⟩, hkl⟩ := (e2 e).1 (hb.mem_iff.1 hee)
    obtain ⟨t, u, f, ws, h1, h2, ct, cu, -, hc⟩ := record_cutter h.soups hP true hr
    obtain ⟨x, z, hx, hz, hj⟩ := cutter_next hc hk hl rfl hlen
    have hne : k ≠ l := by rintro rfl; rw [hx] at hz; cases hz; exact hj.2.2.1 rfl
    have hbe : BorderEdge op x z := ⟨t, List.mem_of_getElem? h1, u, List.mem_of_getElem? h2, ct, cu, hj⟩
    have v1 : VertexId op s infos k := .inl ⟨r, hr, List.mem_of_getElem? hk⟩
    have v2 : VertexId op s infos l := .inl ⟨r, hr, List.mem_of_getElem? hl⟩
    rcases hkl.2 with rfl | rfl
    · exact ⟨hne, v1, v2, x, z, hx, hz, hbe⟩
    · exact ⟨hne.symm, v2, v1, z, x, hz, hx, borderEdge_swap hbe⟩
  · rintro p q x y hp hq hx hy ⟨t, ht, u, hu, ct, cu, hj⟩
    obtain ⟨i, hi⟩ := List.getElem?_of_mem ht
    obtain ⟨j, hj'⟩ := List.getElem?_of_mem hu
    obtain ⟨r, hr, r1, r2⟩ := hP.complete i j t u x hi hj' ct cu hj.1.1.1 hj.1.1.2
    obtain ⟨t', u', f, ws, h1, h2, -, -, -, hc⟩ := record_cutter h.soups hP true hr
    have h1' : (op true)[r.left]? = some t' := h1
    have h2' : (op false)[r.right]? = some u' := h2
    rw [r1, hi] at h1'; cases h1'
    rw [r2, hj'] at h2'; cases h2'
    have key : ∀ {p q : Nat} {x y : P3}, VertexId op s infos p → VertexId op s infos q → pts[p]? = some x → pts[q]? = some y → 2 ≤ ws.length → Next ws x y → IsBorder border p q := by
      rintro p q x y hp hq hx hy hlen ⟨n, hn, hn'⟩
      have hlt : n < r.ids.length := by rw [← hc.length]; exact (List.getElem?_eq_some_iff.1 hn).1
      have hlt' : (n + 1) % r.ids.length < r.ids.length := Nat.mod_lt _ (by omega)
      obtain ⟨w, w1, w2⟩ := hc.points n _ (List.getElem?_eq_getElem hlt)
      obtain ⟨w', w1', w2'⟩ := hc.points _ _ (List.getElem?_eq_getElem hlt')
      rw [hn] at w2; cases w2
      rw [hc.length, w2'] at hn'; cases hn'
      have ep : p = r.ids[n] := vertex_inj h.complex hP hp (.inl ⟨r, hr, List.getElem_mem hlt⟩) (hx.trans w1.symm)
      have eq : q = r.ids[(n + 1) % r.ids.length] := vertex_inj h.complex hP hq (.inl ⟨r, hr, List.getElem_mem hlt'⟩) (hy.trans w1'.symm)
      unfold IsBorder
      rw [hb.mem_iff, e2]
      refine ⟨r, hr, by rw [← hc.length]; exact hlen, p, q, ⟨n, by rw [ep]; exact List.getElem?_eq_getElem hlt, by rw [eq]; exact List.getElem?_eq_getElem hlt'⟩, ?_⟩
      refine ⟨by simp only; omega, ?_⟩
      rcases Nat.le_total p q with h | h
      · left; rw [Nat.min_eq_left h, Nat.max_eq_right h]
      · right; rw [Nat.min_eq_right h, Nat.max_eq_left h]
    obtain ⟨hlen, hn | hn⟩ := (hc.joined x y).1 hj
    · exact key hp hq hx hy hlen hn
    · exact isBorder_comm (key hq hp hy hx hlen hn)

/-- The mixed faces are the pieces of the triangles of both operands, and each one has the data of the face that it is a piece of. -/
theorem gives_laid_data {ord : Tri P3 → P3 → P3 → Prop} (h : Operands op s) (hE : E.Valid op) {m : Soup P3 (MixedData D)} {border : List (Nat × Nat)} (hm : GivesBy ord E (s true) (s false) m border) : ∃ cut ts, Cuts op cut ∧ Laid op cut m ts border ∧ Cutting.TiesCut ord op cut ∧
    ∀ (i : Nat) (p : Tri P3) (d : MixedData D), ts[i]? = some p → m.data[i]? = some d → ∃ (j : Nat) (t : Tri P3), (op d.fromLeft)[j]? = some t ∧ p ∈ cut d.fromLeft t ∧ (s d.fromLeft).data[j]? = some d.data := by
  classical
  obtain ⟨st, finite, fs, ds, edges, hcon, hfin, hmix, hedges, hborder, rfl⟩ := hm
  obtain ⟨st', e, hst⟩ := construct_ok h hE hcon
  cases e
  have ids : ∀ b, (both st.leftIds st.rightIds b) = idsOf s b := by
    intro b; cases b
    · exact hst.rightIds
    · exact hst.leftIds
  have vids : ∀ b, ∀ f ∈ (s b).faces, ∀ v ∈ f.toList, v < (idsOf s b).length := by
    intro b f hf v hv
    rw [ids_length]
    obtain ⟨i, hi⟩ := List.getElem?_of_mem hf
    have hl : i < (op b).length := by rw [← face_length h.soups b]; exact (List.getElem?_eq_some_iff.1 hi).1
    obtain ⟨g, hg, h1, h2, h3⟩ := (face_corners h.soups).1 (List.getElem?_eq_getElem hl)
    rw [hi] at hg; cases hg
    simp only [Tri.toList, List.mem_cons, List.not_mem_nil, or_false] at hv
    rcases hv with rfl | rfl | rfl
    · exact (List.getElem?_eq_some_iff.1 h1).1
    · exact (List.getElem?_eq_some_iff.1 h2).1
    · exact (List.getElem?_eq_some_iff.1 h3).1
  have hno : ∀ {b : Bool} {mp : Slots}, Built op s st.points st.infos b mp → ∀ fi, mp fi ≠ some none := by
    intro b mp hb fi e
    by_cases hx : ∃ x ∈ st.infos, keyOf b x = fi
    · obtain ⟨_, _, c, -, -, e', -⟩ := hb.some fi hx
      rw [e] at e'; cases e'
    · rw [hb.none fi hx] at e; cases e
  have tl : st.leftTags.length = (s true).faces.length := by rw [face_length h.soups true]; exact hst.tags.length true
  have tr : st.rightTags.length = (s false).faces.length := by rw [face_length h.soups false]; exact hst.tags.length false
  obtain ⟨lp, rp, hmix', hlp, hrp, hl, hr, hlen⟩ := Props.C62_assembly finite (s true).faces (s false).faces st.leftMap st.rightMap st.leftIds st.rightIds st.leftTags st.rightTags (s true).data (s false).data
    (by rw [hst.leftIds]; exact vids true) (by rw [hst.rightIds]; exact vids false) (hno hst.left) (hno hst.right) tl tr (h.data true) (h.data false)
  rw [hmix] at hmix'
  cases hmix'
  -- the pieces of the faces
  have hall : ∀ b : Bool, ∀ x ∈ both lp rp b, (x.2.2.fromLeft = b ∧ (s b).data[x.1]? = some x.2.2.data) ∧ ∃ t, (op b)[x.1]? = some t ∧ Tagged op b t x.2.2.tag ∧ ∃ ps, Cut ord op s st.points st.infos b t x.2.1 ps := by
    intro b x hx
    have hlt : x.1 < (op b).length := by
      rw [← face_length h.soups b, ← List.mem_range]
      cases b
      · rw [← hrp]; exact List.mem_map_of_mem hx
      · rw [← hlp]; exact List.mem_map_of_mem hx
    have ht := List.getElem?_eq_getElem hlt
    obtain ⟨tag, h1, h2⟩ := hst.tags.tagged b x.1 _ ht
    cases b
    · obtain ⟨g1, g2, g3, g4⟩ := hr x hx
      rw [show st.rightTags[x.1]? = some tag from h1] at g3; cases g3
      rw [hst.rightIds] at g1
      exact ⟨⟨g2, g4⟩, _, ht, h2, pieces_cut h hst.points hst.right (fun c fi f hc => hfin c fi f (.inr hc)) ht g1⟩
    · obtain ⟨g1, g2, g3, g4⟩ := hl x hx
      rw [show st.leftTags[x.1]? = some tag from h1] at g3; cases g3
      rw [hst.leftIds] at g1
      exact ⟨⟨g2, g4⟩, _, ht, h2, pieces_cut h hst.points hst.left (fun c fi f hc => hfin c fi f (.inl hc)) ht g1⟩
  have hchoose : ∃ F : Nat × List (Tri Nat) × MixedData D → List (Tri P3), ∀ b : Bool, ∀ x ∈ both lp rp b, ∃ t, (op b)[x.1]? = some t ∧ Tagged op b t x.2.2.tag ∧ Cut ord op s st.points st.infos b t x.2.1 (F x) := by
    have : ∀ x : Nat × List (Tri Nat) × MixedData D, ∃ ps, ∀ b : Bool, x ∈ both lp rp b → ∃ t, (op b)[x.1]? = some t ∧ Tagged op b t x.2.2.tag ∧ Cut ord op s st.points st.infos b t x.2.1 ps := by
      intro x
      by_cases hx : ∃ b, x ∈ both lp rp b
      · obtain ⟨b, hx⟩ := hx
        obtain ⟨⟨e, -⟩, t, ht, htag, ps, hps⟩ := hall b x hx
        refine ⟨ps, fun b' hx' => ?_⟩
        have : b' = b := by rw [← (hall b' x hx').1.1, e]
        subst this
        exact ⟨t, ht, htag, hps⟩
      · exact ⟨[], fun b hb => absurd ⟨b, hb⟩ hx⟩
    exact ⟨fun x => (this x).choose, fun b x hx => (this x).choose_spec b hx⟩
  obtain ⟨F, hF⟩ := hchoose
  have hfst : ∀ b, (both lp rp b).map Prod.fst = List.range (op b).length := by
    intro b; rw [← face_length h.soups b]; cases b
    · exact hrp
    · exact hlp
  have hlenb : ∀ b, (both lp rp b).length = (op b).length := by
    intro b
    have := congrArg List.length (hfst b)
    simpa using this
  have hmem : ∀ x, x ∈ lp ++ rp ↔ ∃ b, x ∈ both lp rp b := by
    intro x
    rw [List.mem_append]
    constructor
    · rintro (hx | hx)
      exacts [⟨true, hx⟩, ⟨false, hx⟩]
    · rintro ⟨b, hx⟩
      cases b
      exacts [.inr hx, .inl hx]
  have hFlen : ∀ x ∈ lp ++ rp, (F x).length = (List.replicate x.2.1.length x.2.2).length := by
    intro x hx
    obtain ⟨b, hx⟩ := (hmem x).1 hx
    obtain ⟨t, -, -, hc⟩ := hF b x hx
    rw [List.length_replicate]; exact hc.corners.length_eq.symm
  let cut : Bool → Tri P3 → List (Tri P3) := fun b t => ((both lp rp b)[(op b).idxOf t]?).elim [] F
  have hcut : ∀ b, ∀ x ∈ both lp rp b, ∀ t, (op b)[x.1]? = some t → cut b t = F x := by
    intro b x hx t ht
    obtain ⟨i, hi⟩ := List.getElem?_of_mem hx
    have e : x.1 = i := by
      have := congrArg (·[i]?) (hfst b)
      simp only [List.getElem?_map, hi, Option.map_some] at this
      rw [List.getElem?_range (by rw [← hlenb b]; exact (List.getElem?_eq_some_iff.1 hi).1)] at this
      exact Option.some.inj this
    rw [e] at ht
    obtain ⟨hlt, rfl⟩ := List.getElem?_eq_some_iff.1 ht
    show ((both lp rp b)[(op b).idxOf (op b)[i]]?).elim [] F = F x
    rw [(once_nodup (h.once b)).idxOf_getElem i hlt, hi]
    rfl
  have hof : ∀ b, ∀ t ∈ op b, ∃ x ∈ both lp rp b, (op b)[x.1]? = some t := by
    intro b t ht
    obtain ⟨i, hi⟩ := List.getElem?_of_mem ht
    have hlt := (List.getElem?_eq_some_iff.1 hi).1
    have : i ∈ (both lp rp b).map Prod.fst := by rw [hfst]; exact List.mem_range.2 hlt
    obtain ⟨x, hx, rfl⟩ := List.mem_map.1 this
    exact ⟨x, hx, hi⟩
  have hcuts : Cuts op cut := by
    refine ⟨h.complex, h.once, fun b t ht => ?_⟩
    obtain ⟨x, hx, hxt⟩ := hof b t ht
    obtain ⟨t', ht', -, hc⟩ := hF b x hx
    rw [hxt] at ht'; cases ht'
    rw [hcut b x hx t hxt]
    exact hc.tri
  have hvid : ∀ f ∈ (lp ++ rp).flatMap (fun x => x.2.1), ∀ v ∈ f.toList, VertexId op s st.infos v := by
    intro f hf v hv
    obtain ⟨x, hx, hfx⟩ := List.mem_flatMap.1 hf
    obtain ⟨b, hx⟩ := (hmem x).1 hx
    obtain ⟨t, -, -, hc⟩ := hF b x hx
    exact hc.ids f hfx v hv
  have hzip := zip_flatMap F (fun x => List.replicate x.2.1.length x.2.2) (lp ++ rp) hFlen
  obtain ⟨hb1, hb2⟩ := border_of h hst.points hedges hborder
  have hcor : HasCorners st.points ((lp ++ rp).flatMap fun x => x.2.1) ((lp ++ rp).flatMap F) := by
    refine forall₂_flatMap _ _ _ ?_
    intro x hx
    obtain ⟨b, hx⟩ := (hmem x).1 hx
    obtain ⟨t, -, -, hc⟩ := hF b x hx
    exact hc.corners
  have hpiece : ∀ (i : Nat) (p : Tri P3) (d : MixedData D), ((lp ++ rp).flatMap F)[i]? = some p → ((lp ++ rp).flatMap fun x => List.replicate x.2.1.length x.2.2)[i]? = some d →
      ∃ (j : Nat) (t : Tri P3), (op d.fromLeft)[j]? = some t ∧ p ∈ cut d.fromLeft t ∧ Tagged op d.fromLeft t d.tag ∧ (s d.fromLeft).data[j]? = some d.data := by
    intro i p d hp hd
    have hz : (p, d) ∈ (lp ++ rp).flatMap fun x => (F x).zip (List.replicate x.2.1.length x.2.2) := by
      rw [← hzip]
      exact List.mem_of_getElem? (List.getElem?_zip_eq_some.2 ⟨hp, hd⟩)
    obtain ⟨x, hx, hxz⟩ := List.mem_flatMap.1 hz
    obtain ⟨h1, h2⟩ := List.of_mem_zip hxz
    have ed := (List.mem_replicate.1 h2).2
    obtain ⟨b, hx⟩ := (hmem x).1 hx
    obtain ⟨t, ht, htag, hc⟩ := hF b x hx
    have eb : d.fromLeft = b := by rw [ed]; exact (hall b x hx).1.1
    rw [eb]
    refine ⟨x.1, t, ht, by rw [hcut b x hx t ht]; exact h1, ?_⟩
    rw [ed]
    exact ⟨htag, (hall b x hx).1.2⟩
  -- the ends of a border edge are vertices of faces
  have hused : ∀ {v : Nat} {x y : P3}, VertexId op s st.infos v → st.points[v]? = some x → BorderEdge op x y → ∃ f ∈ (lp ++ rp).flatMap (fun x => x.2.1), v ∈ f.toList := by
    rintro v x y hv hx ⟨t, ht, u, hu, h1, h2, hj⟩
    have hq := Cutting.q_iff.1 hj.1
    obtain ⟨p, hp, hin⟩ := (hcuts.tri true t ht).cover x hq.1.1
    have hxp := (hcuts.tri true t ht).vertex p hp x (Cutting.q_mark hu h1 h2 hq) hin
    obtain ⟨z, hz, hzt⟩ := hof true t ht
    rw [hcut true z hz t hzt] at hp
    obtain ⟨i, hi⟩ := List.getElem?_of_mem hp
    obtain ⟨t', -, -, hc⟩ := hF true z hz
    obtain ⟨f, hf, hcf⟩ := Cutting.forall₂_get' hc.corners hi
    obtain ⟨w, hw, ew⟩ := Cutting.point_face hcf hxp
    have hfm : f ∈ (lp ++ rp).flatMap (fun x => x.2.1) := List.mem_flatMap.2 ⟨z, (hmem z).2 ⟨true, hz⟩, List.mem_of_getElem? hf⟩
    have : v = w := vertex_inj h.complex hst.points hv (hvid f hfm w hw) (hx.trans ew.symm)
    exact ⟨f, hfm, this ▸ hw⟩
  have hties : Cutting.TiesCut ord op cut := by
    intro b t ht
    obtain ⟨x, hx, hxt⟩ := hof b t ht
    obtain ⟨t', ht', -, hc⟩ := hF b x hx
    rw [hxt] at ht'; cases ht'
    rw [hcut b x hx t hxt]
    exact hc.ties
  refine ⟨cut, (lp ++ rp).flatMap F, hcuts, ⟨hlen.symm, hcor, ?_, ?_, ?_, fun e he => (hb1 e he).1, ?_, ?_, ?_, ?_⟩, hties, ?_⟩
  · intro b
    have one : ∀ b' : Bool, ∀ L : List (Nat × List (Tri Nat) × MixedData D), (∀ x ∈ L, x.2.2.fromLeft = b' ∧ (F x).length = x.2.1.length) →
        ((L.flatMap fun x => (F x).zip (List.replicate x.2.1.length x.2.2)).filter (fun y => y.2.fromLeft == b)).map Prod.fst = if b' = b then L.flatMap F else [] := by
      intro b' L
      induction L with
      | nil => intro _; simp
      | cons x L ih =>
        intro hL
        obtain ⟨e1, e2⟩ := hL x (by simp)
        rw [List.flatMap_cons, List.filter_append, List.map_append, ih (fun y hy => hL y (by simp [hy])), List.flatMap_cons]
        have hd : ∀ y ∈ (F x).zip (List.replicate x.2.1.length x.2.2), y.2.fromLeft = b' := by
          rintro ⟨y1, y2⟩ hy
          have := (List.mem_replicate.1 (List.of_mem_zip hy).2).2
          simp only
          rw [this, e1]
        by_cases hbb : b' = b
        · rw [if_pos hbb, if_pos hbb, List.filter_eq_self.2 (by intro y hy; simp [hd y hy, hbb]), List.map_fst_zip (by simp [e2])]
        · rw [if_neg hbb, if_neg hbb, List.filter_eq_nil_iff.2 (by intro y hy; simp [hd y hy, hbb])]
          rfl
    have hA : ∀ b' : Bool, ∀ x ∈ both lp rp b', x.2.2.fromLeft = b' ∧ (F x).length = x.2.1.length := by
      intro b' x hx
      obtain ⟨t, -, -, hc⟩ := hF b' x hx
      exact ⟨(hall b' x hx).1.1, hc.corners.length_eq.symm⟩
    unfold operandTris
    simp only []
    rw [hzip, List.flatMap_append, List.filter_append, List.map_append, one true lp (hA true), one false rp (hA false)]
    rw [flatMap_idxOf (once_nodup (h.once b)) (hlenb b) F]
    cases b
    · simp [both]
    · simp [both]
  · intro i p d hp hd
    obtain ⟨j, t, h1, h2, h3, -⟩ := hpiece i p d hp hd
    exact ⟨t, List.mem_of_getElem? h1, h2, h3.2⟩
  · intro f hf g hg v hv w hw e
    exact vertex_inj h.complex hst.points (hvid f hf v hv) (hvid g hg w hw) e
  · intro i p d hp hd hu
    obtain ⟨j, t, h1, h2, h3, -⟩ := hpiece i p d hp hd
    exact ⟨t, List.mem_of_getElem? h1, h2, h3.1.1 hu⟩
  · intro e he
    obtain ⟨-, v1, v2, x, y, hx, hy, hbe⟩ := hb1 e he
    exact ⟨hused v1 hx hbe, hused v2 hy (borderEdge_swap hbe)⟩
  · intro e he
    obtain ⟨-, -, -, h⟩ := hb1 e he
    exact h
  · intro f hf p hp q hq x y hx hy hbe
    exact hb2 (hvid f hf p hp) (hvid f hf q hq) hx hy hbe
  · intro i p d hp hd
    obtain ⟨j, t, h1, h2, -, h4⟩ := hpiece i p d hp hd
    exact ⟨j, t, h1, h2, h4⟩

/-- The mixed faces are the pieces of the triangles of both operands. -/
theorem gives_laid_by {ord : Tri P3 → P3 → P3 → Prop} (h : Operands op s) (hE : E.Valid op) {m : Soup P3 (MixedData D)} {border : List (Nat × Nat)} (hm : GivesBy ord E (s true) (s false) m border) : ∃ cut ts, Cuts op cut ∧ Laid op cut m ts border ∧ Cutting.TiesCut ord op cut := by
  obtain ⟨cut, ts, h1, h2, h3, -⟩ := gives_laid_data h hE hm
  exact ⟨cut, ts, h1, h2, h3⟩

/-- An order of no points breaks no ties. -/
theorem gives_eq : (Gives E : Soup P3 D → Soup P3 D → Soup P3 (MixedData D) → List (Nat × Nat) → Prop) = GivesBy (fun _ _ _ => False) E := by
  funext l r m b
  have : Cdt.Correct = Cdt.CorrectBy (fun _ _ _ => False) := by
    funext pts c f fs
    refine propext ⟨fun ⟨h1, ps, h2, h3⟩ => ⟨h1, ps, h2, h3, fun p _ v _ _ y _ _ _ a b c _ h => h.elim⟩, fun ⟨h1, ps, h2, h3, _⟩ => ⟨h1, ps, h2, h3⟩⟩
  unfold Gives GivesBy
  rw [this]

theorem gives_laid (h : Operands op s) (hE : E.Valid op) {m : Soup P3 (MixedData D)} {border : List (Nat × Nat)} (hm : Gives E (s true) (s false) m border) : ∃ cut ts, Cuts op cut ∧ Laid op cut m ts border := by
  rw [gives_eq] at hm
  obtain ⟨cut, ts, h1, h2, -⟩ := gives_laid_by h hE hm
  exact ⟨cut, ts, h1, h2⟩

/-- The mixed faces are a corefinement of the operands. -/
theorem gives_corefined {ord : Tri P3 → P3 → P3 → Prop} (h : Operands op s) (hE : E.Valid op) (hg : Cutting.Settled ord op) (hman : ManifoldWhereCoinciding op) {m : Soup P3 (MixedData D)} {border : List (Nat × Nat)}
    (hm : GivesBy ord E (s true) (s false) m border) : ∃ ts, Corefined op m ts border := by
  obtain ⟨cut, ts, h1, h2, h3⟩ := gives_laid_by h hE hm
  exact ⟨ts, Cutting.laid_corefined h1 (hg _ h1 h3) hman h2⟩

end Kigumi.Corefine
