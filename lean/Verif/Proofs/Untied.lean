import Verif.Proofs.Ties
import Verif.Proofs.Spill

/-! # Ties that are broken in different ways in the two operands -/
namespace Kigumi.Cutting
open Kigumi Outcome Geo Spec.Triangles Spec.Side FaceFace Space
open Kigumi.Spec (SameTri HasCorners operandTris IsBorder Apex)
open Kigumi.Side (ok_of_proper)
variable {D : Type} {op : Bool → List (Tri P3)} {cut : Bool → Tri P3 → List (Tri P3)}

/-- The common part of two triangles has four corners, on a circle, and the greatest ones for the two orders are neighbours. -/
structure Crosswise (lt lt' : P3 → P3 → Prop) (t u : Tri P3) (w x y z : P3) : Prop where
  corners : ∀ v, Extreme (Common t u) v ↔ v = w ∨ v = x ∨ v = y ∨ v = z
  distinct : w ≠ x ∧ w ≠ y ∧ w ≠ z ∧ x ≠ y ∧ x ≠ z ∧ y ≠ z
  circle : Cocircular w x y z
  first : lt w x ∧ lt y x ∧ lt z x
  second : lt' x w ∧ lt' y w ∧ lt' z w
  beside : ¬ Opposed w x y z

/-- **No piece of the one triangle is a piece of the other** where ties are broken in different ways. -/
theorem disagree {ord : Tri P3 → P3 → P3 → Prop} (h : Cuts op cut) (hc : TiesCut ord op cut) {b : Bool} {t u : Tri P3} (ht : t ∈ op b) (hu : u ∈ op (!b)) (hct : ¬ Coincides op b t) (hcu : ¬ Coincides op (!b) u) {w x y z : P3}
    (hx : Crosswise (ord t) (ord u) t u w x y z) {p r : Tri P3} (hp : p ∈ cut b t) (hr : r ∈ cut (!b) u) : ¬ Match p r := by
  intro hm
  have ht' : t ∈ op (!!b) := by rw [Bool.not_not]; exact ht
  have hct' : ¬ Coincides op (!!b) t := by rw [Bool.not_not]; exact hct
  have ct := h.tri b t ht
  have cu := h.tri (!b) u hu
  have pp := ct.complex.proper p hp
  have pr := cu.complex.proper r hr
  have hpu : ∀ v ∈ p.toList, In u v := fun v hv => cu.inside r hr v (in_corner ((match_mem hm v).1 hv))
  have hrt : ∀ v ∈ r.toList, In t v := fun v hv => ct.inside p hp v (in_corner ((match_mem hm v).2 hv))
  have qp : ∀ v ∈ p.toList, Q t u v := fun v hv => mark_q h ht hu (ct.corner p hp v hv) (hpu v hv)
  have four : ∀ v ∈ p.toList, v = w ∨ v = x ∨ v = y ∨ v = z := fun v hv => (hx.corners v).1 (q_iff.2 (qp v hv))
  have qq : ∀ {v}, v = w ∨ v = x ∨ v = y ∨ v = z → Q t u v := fun hv => q_iff.1 ((hx.corners _).2 hv)
  obtain ⟨n1, n2, n3, n4, n5, n6⟩ := hx.distinct
  have hw : Wide t u := ⟨w, x, y, qq (by simp), qq (by simp), qq (by simp), n1, n4, n2⟩
  obtain ⟨o, d1, d2, d3⟩ := hx.circle
  have dist : ∀ {v}, v = w ∨ v = x ∨ v = y ∨ v = z → dist2 o v = dist2 o w := by
    rintro v (rfl | rfl | rfl | rfl)
    exacts [rfl, d1.symm, (d1.trans d2).symm, (d1.trans (d2.trans d3)).symm]
  have circ : ∀ {k : Tri P3}, (∀ v ∈ k.toList, v = w ∨ v = x ∨ v = y ∨ v = z) → ∀ {v}, v = w ∨ v = x ∨ v = y ∨ v = z → Cocircular k.a k.b k.c v := by
    intro k hk v hv
    refine ⟨o, ?_, ?_, ?_⟩
    · rw [dist (hk k.a (by simp [Tri.toList])), dist (hk k.b (by simp [Tri.toList]))]
    · rw [dist (hk k.b (by simp [Tri.toList])), dist (hk k.c (by simp [Tri.toList]))]
    · rw [dist (hk k.c (by simp [Tri.toList])), dist hv]
  have four' : ∀ v ∈ r.toList, v = w ∨ v = x ∨ v = y ∨ v = z := fun v hv => four v ((match_mem hm v).2 hv)
  have tp : ∀ {v}, (v = w ∨ v = x ∨ v = y ∨ v = z) → v ∉ p.toList → Tie (ord t) p v := fun hv hn =>
    hc b t ht p hp _ (q_mark hu hct hcu (qq hv)) hn (centre p) (inner_centre p) (piece_sees h ht hu hw hp hpu (qq hv)) (circ four hv)
  have tr : ∀ {v}, (v = w ∨ v = x ∨ v = y ∨ v = z) → v ∉ p.toList → Tie (ord u) r v := fun hv hn =>
    hc (!b) u hu r hr _ (q_mark ht' hcu hct' (q_comm.1 (qq hv))) (fun hv' => hn ((match_mem hm _).2 hv')) (centre r) (inner_centre r) (piece_sees h hu ht' (wide_comm hw) hr hrt (q_comm.1 (qq hv))) (circ four' hv)
  have as : ∀ {a b c : P3}, a ≠ b → b ≠ c → c ≠ a → a ∈ p.toList → b ∈ p.toList → c ∈ p.toList → Match ⟨a, b, c⟩ p := fun h1 h2 h3 ha hb hc => match_of_mem ⟨h1, h2, h3⟩ ha hb hc
  have rest : ∀ {a b c d : P3}, a ≠ b → b ≠ c → c ≠ a → (∀ v ∈ p.toList, v = d ∨ v = a ∨ v = b ∨ v = c) → d ∉ p.toList → Match ⟨a, b, c⟩ p := by
    intro a b c d h1 h2 h3 hv hd
    have e : ∀ v ∈ p.toList, v ∈ (⟨a, b, c⟩ : Tri P3).toList := by
      intro v hv'
      have : v ≠ d := fun e => hd (e ▸ hv')
      have := (hv v hv').resolve_left this
      simpa [Tri.toList] using this
    exact match_symm (match_of_mem (proper_distinct pp) (e _ (by simp [Tri.toList])) (e _ (by simp [Tri.toList])) (e _ (by simp [Tri.toList])))
  obtain ⟨f1, f2, f3⟩ := hx.first
  obtain ⟨s1, s2, s3⟩ := hx.second
  have ok3 : ∀ {a b c : P3}, a = w ∨ a = x ∨ a = y ∨ a = z → b = w ∨ b = x ∨ b = y ∨ b = z → c = w ∨ c = x ∨ c = y ∨ c = z → a ≠ b → b ≠ c → a ≠ c → Side.Ok ⟨a, b, c⟩ := fun ha hb hc => ext_ok (qq ha) (qq hb) (qq hc)
  by_cases hxp : x ∈ p.toList
  · by_cases hwp : w ∈ p.toList
    · by_cases hyp : y ∈ p.toList
      · have hzp : z ∉ p.toList := by
          intro hzp
          have := (match_mem (as n1 n4 n2.symm hwp hxp hyp) z).2 hzp
          simp only [Tri.toList, List.mem_cons, List.not_mem_nil, or_false] at this
          rcases this with e | e | e
          exacts [n3 e.symm, n5 e.symm, n6 e.symm]
        have o1 := tp (v := z) (by simp) hzp x w y (as n1.symm n2 n4.symm hxp hwp hyp) f1 f2 f3
        have o2 := tr (v := z) (by simp) hzp w x y (match_trans (as n1 n4 n2.symm hwp hxp hyp) hm) s1 s2 s3
        exact opposed_once (o := o) (b := z) (v := x) (a := w) (c := y) (ok3 (by simp) (by simp) (by simp) n3.symm n2 n6.symm) rfl (dist (by simp)) (dist (by simp)) n2 n1 (opposed_swap o1) (opposed_swap' (opposed_swap o2))
      · have o1 := tp (v := y) (by simp) hyp x w z (rest (d := y) n1.symm n3 n5.symm (fun v hv => by rcases four v hv with h | h | h | h <;> simp [h]) hyp) f1 f3 f2
        have o2 := tr (v := y) (by simp) hyp w x z (match_trans (rest (d := y) n1 n5 n3.symm (fun v hv => by rcases four v hv with h | h | h | h <;> simp [h]) hyp) hm) s1 s3 s2
        exact opposed_once (o := o) (b := y) (v := x) (a := w) (c := z) (ok3 (by simp) (by simp) (by simp) n2.symm n3 n6) rfl (dist (by simp)) (dist (by simp)) n3 n1 (opposed_swap o1) (opposed_swap' (opposed_swap o2))
    · exact hx.beside (opposed_swap (tp (v := w) (by simp) hwp x y z (rest (d := w) n4 n6 n5.symm (fun v hv => by rcases four v hv with h | h | h | h <;> simp [h]) hwp) f2 f3 f1))
  · exact hx.beside (tr (v := x) (by simp) hxp w y z (match_trans (rest (d := x) n2 n6 n3.symm (fun v hv => by rcases four v hv with h | h | h | h <;> simp [h]) hxp) hm) s2 s3 s1)

/-- There is a piece of the first triangle in the common part. -/
theorem crosswise_piece {lt lt' : P3 → P3 → Prop} (h : Cuts op cut) {b : Bool} {t u : Tri P3} (ht : t ∈ op b) (hu : u ∈ op (!b)) (hct : ¬ Coincides op b t) (hcu : ¬ Coincides op (!b) u) {w x y z : P3} (hx : Crosswise lt lt' t u w x y z) :
    ∃ p ∈ cut b t, ∀ v ∈ p.toList, In u v := by
  have qq : ∀ {v}, v = w ∨ v = x ∨ v = y ∨ v = z → Q t u v := fun hv => q_iff.1 ((hx.corners _).2 hv)
  obtain ⟨n1, n2, n3, n4, n5, n6⟩ := hx.distinct
  obtain ⟨p, hp, -, hpu⟩ := piece_cover h ht hu hct hcu ⟨w, x, y, qq (by simp), qq (by simp), qq (by simp), n1, n4, n2⟩ (qq (v := w) (by simp)).1
  exact ⟨p, hp, hpu⟩

/-! ## No two faces coincide -/

/-- No piece of the one operand is a piece of the other. -/
def PiecesDiffer (op : Bool → List (Tri P3)) (cut : Bool → Tri P3 → List (Tri P3)) : Prop :=
  ∀ t ∈ op true, ∀ u ∈ op false, ∀ p ∈ cut true t, ∀ r ∈ cut false u, ¬ Match p r

theorem once_all {ts : List (Tri P3)} {data : List (MixedData D)} (hd : data.length = ts.length) (ho : ∀ b, Once (operandTris ts data b)) (hn : ∀ p ∈ operandTris ts data true, ∀ r ∈ operandTris ts data false, ¬ Match p r) : Once ts := by
  rw [once_pairwise, List.pairwise_iff_getElem]
  intro i j hi hj hij hm
  have hpw : ∀ b, _ := fun b => once_pairwise.1 (ho b)
  simp only [operandTris, List.pairwise_map, List.pairwise_filter, beq_iff_eq] at hpw
  simp only [List.pairwise_iff_getElem] at hpw
  have hzi : i < (ts.zip data).length := by rw [List.length_zip]; omega
  have hzj : j < (ts.zip data).length := by rw [List.length_zip]; omega
  have mem : ∀ (i : Nat) (hi : i < ts.length) (b : Bool), (data[i]'(by omega)).fromLeft = b → ts[i] ∈ operandTris ts data b := fun i hi b hb =>
    mem_operand.2 ⟨i, _, List.getElem?_eq_getElem hi, List.getElem?_eq_getElem (by omega), hb⟩
  cases h1 : (data[i]'(by omega)).fromLeft <;> cases h2 : (data[j]'(by omega)).fromLeft
  · exact hpw false i j hzi hzj hij (by simpa using h1) (by simpa using h2) (by simpa using hm)
  · exact hn _ (mem j hj _ h2) _ (mem i hi _ h1) (match_symm hm)
  · exact hn _ (mem i hi _ h1) _ (mem j hj _ h2) hm
  · exact hpw true i j hzi hzj hij (by simpa using h1) (by simpa using h2) (by simpa using hm)

theorem once_differ (h : Cuts op cut) (hn : PiecesDiffer op cut) {m : Soup P3 (MixedData D)} {ts : List (Tri P3)} {border : List (Nat × Nat)} (hl : Laid op cut m ts border) : Once ts := by
  refine once_all (by rw [hl.data]; exact hl.corners.length_eq) (fun b => by rw [hl.tris]; exact once_pieces h b) ?_
  intro p hp r hr
  rw [hl.tris] at hp hr
  obtain ⟨t, ht, hp⟩ := List.mem_flatMap.1 hp
  obtain ⟨u, hu, hr⟩ := List.mem_flatMap.1 hr
  exact hn t ht u hu p hp r hr

/-- The pieces of an operand are a complex, each of them once, that bounds the same region. -/
theorem pieces_bound (h : Cuts op cut) {χ : P3 → Prop} {b : Bool} (hb : Bounds (op b) χ) : Complex ((op b).flatMap (cut b)) ∧ Once ((op b).flatMap (cut b)) ∧ Bounds ((op b).flatMap (cut b)) χ := by
  refine ⟨⟨?_, ?_⟩, once_pieces h b, ?_⟩
  · intro p hp
    obtain ⟨t, ht, hp⟩ := List.mem_flatMap.1 hp
    exact (h.tri b t ht).complex.proper p hp
  · intro p hp r hr x hx hx'
    obtain ⟨t, ht, hp⟩ := List.mem_flatMap.1 hp
    obtain ⟨u, hu, hr⟩ := List.mem_flatMap.1 hr
    exact inCommon_iff.2 (com_same h ht hu hp hr hx hx')
  · obtain ⟨src, hr⟩ := refines_flatMap (cut b) (op b) (fun t ht p hp => ⟨(h.tri b t ht).inside p hp, (h.tri b t ht).oriented p hp⟩) (fun t ht x hx => (h.tri b t ht).cover x hx)
    exact refines_bounds hr hb

theorem mkFaces_fi {pts : Nat → P3} {u v : P3} {p q : Nat} (hpq : p ≠ q) {l : List (Nat × Tri Nat)} (hd : ∀ g ∈ l, g.2.a ≠ g.2.b ∧ g.2.b ≠ g.2.c ∧ g.2.a ≠ g.2.c) {es : List Radial.FaceAround} (h : Radial.mkFaces pts u v p q l = ok es) :
    es.map (·.entry.fi) = l.map (·.1) ∧ ∀ a ∈ es, ∃ g ∈ l, g.1 = a.entry.fi ∧ Apex p q g.2 a.entry.r := by
  induction l generalizing es with
  | nil => cases h; simp
  | cons g l ih =>
    obtain ⟨fi, f⟩ := g
    simp only [Radial.mkFaces] at h
    rw [bind_eq_ok] at h
    obtain ⟨x, hx, h⟩ := h
    rw [bind_eq_ok] at h
    obtain ⟨xs, hxs, h⟩ := h
    cases h
    obtain ⟨i1, i2⟩ := ih (fun g hg => hd g (List.mem_cons_of_mem _ hg)) hxs
    have hdf := hd (fi, f) (by simp)
    unfold Radial.mkFace at hx
    rw [bind_eq_ok] at hx
    obtain ⟨e, he, hx⟩ := hx
    rw [bind_eq_ok] at hx
    obtain ⟨bin, -, hx⟩ := hx
    cases hx
    have hfi : e.fi = fi := (Radial.entry_shape hpq hdf he).1
    refine ⟨by simp [i1, hfi], ?_⟩
    intro a ha
    rcases List.mem_cons.1 ha with rfl | ha
    · exact ⟨(fi, f), by simp, hfi.symm, Radial.apex_of hpq hdf he⟩
    · obtain ⟨g, hg, h1⟩ := i2 a ha
      exact ⟨g, by simp [hg], h1⟩

/-- **Around an edge of the intersection, no successive faces have the same third vertex** if no faces coincide. -/
theorem edge_apart {fs : List (Tri Nat)} {pts : Nat → P3} (hd : ∀ f ∈ fs, f.a ≠ f.b ∧ f.b ≠ f.c ∧ f.a ≠ f.c) {E : Mix.Env} {orig : Bool → List (Tri P3)} (hE : E.Valid orig)
    {m : Mesh.Mesh} (hm : Mesh.Finalized fs m) {e : Nat × Nat} (he : pts e.1 ≠ pts e.2) {x : List Nat × Option (List Local.Entry)} (hx : Mix.edgeInput E fs m pts e = ok x) {cs : List Local.Entry} (hcs : x.2 = some cs)
    (hn : ∀ (i j : Nat) (f g : Tri Nat) (r : Nat), fs[i]? = some f → fs[j]? = some g → Apex e.1 e.2 f r → Apex e.1 e.2 g r → i = j)
    (h2 : ∀ (i : Nat) (f : Tri Nat), fs[i]? = some f → e.1 ∈ f.toList → e.2 ∈ f.toList → ∃ (j : Nat) (g : Tri Nat), fs[j]? = some g ∧ e.1 ∈ g.toList ∧ e.2 ∈ g.toList ∧ i ≠ j) :
    ∀ k, k < cs.length → (Local.nth cs k).r ≠ (Local.nth cs ((k + 1) % cs.length)).r := by
  obtain ⟨p, q⟩ := e
  simp only at he hn h2
  have hpq : p ≠ q := fun h => he (by rw [h])
  unfold Mix.edgeInput at hx
  rw [bind_eq_ok] at hx
  obtain ⟨around, ha, hx⟩ := hx
  rw [bind_eq_ok] at hx
  obtain ⟨l, hl, hx⟩ := hx
  simp only at hx ha
  obtain ⟨hl1, hl2⟩ := numbered_spec hl
  obtain ⟨hu1, hu2⟩ := aroundEdge_used hm ha
  obtain ⟨around', ha', hsorted, hmem⟩ := Props.C23_faces_around_edge hm hpq hu1 hu2
  rw [ha] at ha'; cases ha'
  have hb := hE.base _ (Radial.sub_ne he)
  cases hmk : Radial.mkFaces pts (E.base (sub (pts q) (pts p))).1 (E.base (sub (pts q) (pts p))).2 p q l with
  | exn w => rw [hmk] at hx; cases hx; cases hcs
  | ub w => rw [hmk] at hx; cases hx
  | ok es =>
    rw [hmk] at hx
    cases hx
    cases hcs
    have hswo := Props.C29_strict_weak_order he hb
    have hrel := mkFaces_rel hmk
    have hs := hE.sort es (fun a ha => hswo.1 a (hrel a ha)) (fun a ha b hb c hc => hswo.2.1 a b c (hrel a ha) (hrel b hb) (hrel c hc))
      (fun a ha b hb c hc => hswo.2.2 a b c (hrel a ha) (hrel b hb) (hrel c hc))
    obtain ⟨hfi, hap⟩ := mkFaces_fi hpq (fun g hg => hd _ (List.mem_of_getElem? (hl2 g hg))) hmk
    have hperm : ((E.sort es).map (·.entry.fi)).Perm around := by
      rw [← hl1, ← hfi]; exact hs.1.map _
    have hnd : ((E.sort es).map (·.entry.fi)).Nodup := hperm.nodup_iff.2 (hsorted.imp (fun h => Nat.ne_of_lt h))
    have entry : ∀ k, k < ((E.sort es).map (·.entry)).length → ∃ f, fs[(Local.nth ((E.sort es).map (·.entry)) k).fi]? = some f ∧ Apex p q f (Local.nth ((E.sort es).map (·.entry)) k).r := by
      intro k hk
      obtain ⟨a, ha, e⟩ := List.mem_map.1 (Local.nth_mem hk)
      obtain ⟨g, hg, e1, e2⟩ := hap a (hs.1.mem_iff.1 ha)
      rw [← e]
      exact ⟨g.2, by rw [← e1]; exact hl2 g hg, e2⟩
    intro k hk hr
    have hk' : (k + 1) % ((E.sort es).map (·.entry)).length < ((E.sort es).map (·.entry)).length := Nat.mod_lt _ (by omega)
    obtain ⟨f, hf, af⟩ := entry k hk
    obtain ⟨g, hg, ag⟩ := entry _ hk'
    rw [← hr] at ag
    have efi := hn _ _ _ _ _ hf hg af ag
    have hlen : ((E.sort es).map (·.entry)).length = ((E.sort es).map (·.entry.fi)).length := by simp
    have nthfi : ∀ k (hk : k < ((E.sort es).map (·.entry)).length), (Local.nth ((E.sort es).map (·.entry)) k).fi = ((E.sort es).map (·.entry.fi))[k]'(by omega) := by
      intro k hk
      unfold Local.nth
      rw [List.getD_eq_getElem?_getD, List.getElem?_eq_getElem hk]
      simp
    rw [nthfi k hk, nthfi _ hk'] at efi
    have ek := (List.Nodup.getElem_inj_iff hnd).1 efi
    -- there is only one face around the edge
    have one : ((E.sort es).map (·.entry)).length = 1 := by
      by_contra hne
      rcases Nat.lt_or_ge (k + 1) ((E.sort es).map (·.entry)).length with h | h
      · rw [Nat.mod_eq_of_lt h] at ek; omega
      · have : k + 1 = ((E.sort es).map (·.entry)).length := by omega
        rw [this, Nat.mod_self] at ek; omega
    obtain ⟨a1, a2, -⟩ := Space.apex_mem af
    obtain ⟨j, g', hg', b1, b2, hij⟩ := h2 _ _ hf a1 a2
    have hin : ∀ {i : Nat} {f : Tri Nat}, fs[i]? = some f → p ∈ f.toList → q ∈ f.toList → i ∈ around := fun hf h1 h2 =>
      (hmem _).2 ⟨⟨_, hf, by simpa [Tri.toList] using h1⟩, ⟨_, hf, by simpa [Tri.toList] using h2⟩⟩
    have len1 : around.length = 1 := by rw [← hperm.length_eq, ← hlen, one]
    obtain ⟨z, hz⟩ := List.length_eq_one_iff.1 len1
    have m1 := hin hf a1 a2
    have m2 := hin hg' b1 b2
    rw [hz, List.mem_singleton] at m1 m2
    exact hij (m1.trans m2.symm)

theorem edge_two {cs : List Local.Entry} (h : ∀ k, k < cs.length → (Local.nth cs k).r ≠ (Local.nth cs ((k + 1) % cs.length)).r) :
    Local.EdgeOK (fun _ t => t = .exterior ∨ t = .interior) cs (fun _ => False) (fun _ t => t = .exterior ∨ t = .interior) where
  ov := by simp
  ovKnown := by simp
  tag1 := fun i hi hr => absurd hr (h i hi)
  tag2 := by
    intro i _ _ _ _
    constructor <;> split <;> simp
  good := by rintro i t (rfl | rfl) <;> simp
  init := fun i _ _ t _ h => h
  next := by
    intro i t _ ht
    split
    · split <;> simp
    · exact ht
  write := fun i t _ h _ => h

/-- **Every face is classified as inside or outside of the other operand** if no pieces of the operands are the same. -/
theorem tags_apart (h : Cuts op cut) (hn : PiecesDiffer op cut) {χ : Bool → P3 → Prop} (hb : ∀ b, Bounds (op b) (χ b)) {left right : Soup P3 D} {m0 : Soup P3 (MixedData D)} {ts : List (Tri P3)} {border : List (Nat × Nat)}
    (hl : Laid op cut m0 ts border) {E : Mix.Env} {orig : Bool → List (Tri P3)} (hE : E.Valid orig) {out : Soup P3 (MixedData D)} {w : Global.Warnings} (hr : Mix.Result E left right m0 border out w) :
    ∃ tags : Nat → Tag, out = ⟨m0.points, m0.faces, Mix.retag tags 0 m0.data⟩ ∧ ∀ i, i < m0.faces.length → tags i = .exterior ∨ tags i = .interior := by
  obtain ⟨m, edges, tags1, tags2, w1, w2, hm, hedges, hloc, hglob, hout, -⟩ := hr
  refine ⟨tags2, hout, ?_⟩
  have honce := once_differ h hn hl
  have hprop : ∀ f ∈ m0.faces, Proper (tri (Mix.pts m0.points) f) := by
    intro f hf
    obtain ⟨i, hi⟩ := List.mem_iff_getElem?.1 hf
    obtain ⟨d, hd, -⟩ := laid_data hl hi
    obtain ⟨t, ht, hp, -⟩ := hl.piece i _ d (corner_tri hl.corners hi) hd
    exact (h.tri _ t ht).complex.proper _ hp
  have hdist : ∀ f ∈ m0.faces, f.a ≠ f.b ∧ f.b ≠ f.c ∧ f.a ≠ f.c := by
    intro f hf
    obtain ⟨h1, h2, h3⟩ := proper_distinct (hprop f hf)
    simp only [tri] at h1 h2 h3
    exact ⟨fun e => h1 (by rw [e]), fun e => h2 (by rw [e]), fun e => h3 (by rw [e])⟩
  have hP : Spec.Proper m0.faces := fun f hf => hdist f hf
  -- at first no face has a tag
  have h0 : ∀ i, i < m0.faces.length → Mix.tag m0.data i = .unknown := by
    intro i hi
    have hf : m0.faces[i]? = some m0.faces[i] := List.getElem?_eq_getElem hi
    obtain ⟨d, hd, -, e2⟩ := laid_data hl hf
    obtain ⟨t, ht, hp, hc⟩ := hl.piece i _ d (corner_tri hl.corners hf) hd
    rw [e2]
    have no : ∀ u ∈ op (!d.fromLeft), ¬ Match t u := by
      intro u hu hmt
      obtain ⟨r, hr, -⟩ := (h.tri _ u hu).cover u.a (Side.in_a u)
      have hpr := match_trans (whole h ht ⟨u, hu, hmt⟩ hp) (match_trans hmt (match_symm (whole h hu (coincides_symm ht hmt) hr)))
      cases hfl : d.fromLeft
      · rw [hfl] at ht hp hu hr
        exact hn u hu t ht r hr _ hp (match_symm hpr)
      · rw [hfl] at ht hp hu hr
        exact hn t ht u hu _ hp r hr hpr
    rcases hc with hc | ⟨-, u, hu, hs⟩ | ⟨-, u, hu, hs⟩
    · exact hc
    · exact absurd (Or.inl hs) (no u hu)
    · exact absurd (Or.inr hs) (no u hu)
  have h0' : ∀ i, Mix.tag m0.data i = .unknown := by
    intro i
    rcases Nat.lt_or_ge i m0.faces.length with hi | hi
    · exact h0 i hi
    · unfold Mix.tag
      rw [List.getElem?_eq_none (by rw [hl.data]; exact hi)]
      rfl
  -- around the edges
  have hedge : ∀ x ∈ edges, ∀ cs, x.2 = some cs → Local.EdgeOK (fun _ t => t = .exterior ∨ t = .interior) cs (fun _ => False) (fun _ t => t = .exterior ∨ t = .interior) := by
    intro x hx cs hcs
    obtain ⟨e, he, hin⟩ := edgeInputs_mem hedges x hx
    obtain ⟨y, z, hy, hz, hbe⟩ := hl.joined e he
    have hne : Mix.pts m0.points e.1 ≠ Mix.pts m0.points e.2 := by
      obtain ⟨t, -, u, -, -, -, -, -, hyz, -⟩ := hbe
      rw [pts_some hy, pts_some hz]; exact hyz
    refine edge_two (edge_apart hdist hE hm hne hin hcs ?_ ?_)
    · intro i j f g r hf hg af ag
      exact honce i j _ _ (corner_tri hl.corners hf) (corner_tri hl.corners hg) (match_trans (match_symm (Space.apex_match af)) (Space.apex_match ag))
    · intro i f hf h1 h2
      obtain ⟨d, hd, -⟩ := laid_data hl hf
      have hmem : tri (Mix.pts m0.points) f ∈ operandTris ts m0.data d.fromLeft := mem_operand.2 ⟨i, d, corner_tri hl.corners hf, hd, rfl⟩
      obtain ⟨c1, c2, c3⟩ := pieces_bound h (hb d.fromLeft)
      rw [← hl.tris] at c1 c2 c3
      obtain ⟨u, hu, hu1, hu2, hnm⟩ := other_face c1 c2 c3 hmem (laid_point hl hf h1).2 (laid_point hl hf h2).2 hne
      obtain ⟨j, d', hj, -, -⟩ := mem_operand.1 hu
      obtain ⟨g, hg, rfl⟩ := corner_face hl.corners hj
      have vert : ∀ {v : Nat}, v ∈ f.toList → Mix.pts m0.points v ∈ (tri (Mix.pts m0.points) g).toList → v ∈ g.toList := by
        intro v hv hvg
        obtain ⟨v', hv', e⟩ := laid_vertex hl hg hvg
        have := hl.points f (List.mem_of_getElem? hf) g (List.mem_of_getElem? hg) v hv v' hv' ((laid_point hl hf hv).1.trans e.symm)
        rwa [this]
      refine ⟨j, g, hg, vert h1 hu1, vert h2 hu2, ?_⟩
      rintro rfl
      rw [hf] at hg; cases hg
      exact hnm (match_refl _)
  have ha := Local.meshEnv_adj hm hP border (Mix.owner m0.data)
  have hside : ∀ r t, Mix.sideTag E left right m0.faces (Mix.pts m0.points) (Mix.owner m0.data) r = some t → t = .exterior ∨ t = .interior := by
    intro r t h
    unfold Mix.sideTag at h
    split at h
    · cases h
    · split at h <;> simp at h <;> simp [← h]
  obtain ⟨reps, t, h1, h2, h3, h4, h5, -⟩ := Local.global_result ha hside hglob
  obtain ⟨c, ws, order, hex, hct, hret, -, -⟩ := hloc
  obtain ⟨hok, -, W, hsrc, hpost⟩ := Local.local_result (ok := fun _ t => t = .exterior ∨ t = .interior) ha.lt (fun _ _ _ _ h => h) (fun g hg => absurd (h0' g) hg) (fun _ => False)
    (fun e he cs hcs => ⟨_, _, hedge e he cs hcs, by simp⟩) hex
  rw [hct] at hok hsrc hpost
  have hunk : ∀ r ∈ reps, ∀ g, Spec.Reach (Global.R (Mix.env m0.faces m border (Mix.owner m0.data)).nbr) tags1 r g → tags1 g = .unknown :=
    fun r hr g hg => Global.reach_unknown hg (h2 r hr).2.1
  have hcl : ∀ r ∈ reps, ∀ f, Spec.Reach (Global.R (Mix.env m0.faces m border (Mix.owner m0.data)).nbr) tags1 r f → ∀ g ∈ (Mix.env m0.faces m border (Mix.owner m0.data)).nbr f,
      Spec.Reach (Global.R (Mix.env m0.faces m border (Mix.owner m0.data)).nbr) tags1 r g := by
    intro r hr f hf g hgf
    refine .step hf hgf ?_
    by_contra hne
    obtain ⟨i, hi, hWi⟩ := hsrc g (by rw [h0' g]; exact hne)
    have hfg : f ≠ g := by rintro rfl; exact hne (hunk r hr f hf)
    exact (hpost i _ (hret i hi)).1 g hWi f (ha.symm f g hfg hgf) (hunk r hr f hf)
  intro x hx
  by_cases hx1 : tags1 x = .unknown
  · obtain ⟨r, hr, hQ⟩ := h5 x hx hx1
    rw [h3 r hr x (hQ (Spec.Reach (Global.R (Mix.env m0.faces m border (Mix.owner m0.data)).nbr) tags1 r) .seed (hcl r hr))]
    exact hside r _ (h2 r hr).1
  · rw [h4 x (fun r hr hre => hx1 (hunk r hr x hre))]
    exact hok x hx1

end Kigumi.Cutting
