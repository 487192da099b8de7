import Verif.Proofs.Walk
import Verif.Proofs.Laid
import Verif.Proofs.Returns

/-! # After the local classification, the centre of every unclassified face is off the surface of the other operand -/
namespace Kigumi.Space
open Kigumi Outcome Geo Radial Local Spec.Triangles Spec.Side
open Kigumi.Spec (SameTri Apex SameFace HasCorners operandTris)
variable {D : Type}

theorem edgeInputs_get {E : Mix.Env} {fs : List (Tri Nat)} {m : Mesh.Mesh} {pts : Nat → P3} {border : List (Nat × Nat)} {edges : List (List Nat × Option (List Entry))}
    (h : Mix.edgeInputs E fs m pts border = ok edges) : ∀ e ∈ border, ∃ x ∈ edges, Mix.edgeInput E fs m pts e = ok x := by
  induction border generalizing edges with
  | nil => simp
  | cons e es ih =>
    simp only [Mix.edgeInputs] at h
    rw [bind_eq_ok] at h
    obtain ⟨x, hx, h⟩ := h
    rw [bind_eq_ok] at h
    obtain ⟨xs, hxs, h⟩ := h
    cases h
    intro e' he'
    rcases List.mem_cons.1 he' with rfl | he'
    · exact ⟨x, by simp, hx⟩
    · obtain ⟨y, hy, h'⟩ := ih hxs e' he'
      exact ⟨y, by simp [hy], h'⟩

theorem mkFaces_mem {pts : Nat → P3} {u v : P3} {p q : Nat} {l : List (Nat × Tri Nat)} {es : List FaceAround} (h : mkFaces pts u v p q l = ok es) : ∀ g ∈ l, ∃ e ∈ es, mkFace pts u v p q g.1 g.2 = ok e := by
  induction l generalizing es with
  | nil => simp
  | cons g l ih =>
    obtain ⟨fi, f⟩ := g
    simp only [mkFaces] at h
    rw [bind_eq_ok] at h
    obtain ⟨x, hx, h⟩ := h
    rw [bind_eq_ok] at h
    obtain ⟨xs, hxs, h⟩ := h
    cases h
    intro e he
    rcases List.mem_cons.1 he with rfl | he
    · exact ⟨x, by simp, hx⟩
    · obtain ⟨y, hy, h'⟩ := ih hxs e he
      exact ⟨y, by simp [hy], h'⟩

theorem mkFace_entry {pts : Nat → P3} {u v : P3} {p q r fi : Nat} {f : Tri Nat} {a : FaceAround} (hd : f.a ≠ f.b ∧ f.b ≠ f.c ∧ f.a ≠ f.c) (h : Apex p q f r) (ha : mkFace pts u v p q fi f = ok a) : a.entry.r = r ∧ a.entry.fi = fi := by
  obtain ⟨e, he, hr⟩ := mkEntry_exists (fi := fi) hd h
  unfold mkFace at ha
  rw [he, ok_bind, bind_eq_ok] at ha
  obtain ⟨b, -, ha⟩ := ha
  cases ha
  refine ⟨hr, ?_⟩
  unfold mkEntry at he
  rw [bind_eq_ok] at he
  obtain ⟨i, -, he⟩ := he
  rw [bind_eq_ok] at he
  obtain ⟨j, -, he⟩ := he
  simp only at he
  split at he
  · rw [bind_eq_ok] at he
    obtain ⟨r', -, he⟩ := he
    cases he
    rfl
  · cases he

/-- Coinciding faces overlap around each of their edges. -/
theorem edge_overlap {K : P3 → Prop} {fs : List (Tri Nat)} {pts : Nat → P3} {owner : Nat → Bool} {χ : Bool → P3 → Prop} (S : Scene K fs pts owner χ) {E : Mix.Env} {orig : Bool → List (Tri P3)} (hE : E.Valid orig)
    {m : Mesh.Mesh} (hm : Mesh.Finalized fs m) {e : Nat × Nat} (he : e.1 ≠ e.2) {x : List Nat × Option (List Entry)} (hx : Mix.edgeInput E fs m pts e = ok x) {cs : List Entry} (hcs : x.2 = some cs)
    {i j r : Nat} {f g : Tri Nat} (hf : fs[i]? = some f) (hg : fs[j]? = some g) (hij : i ≠ j) (haf : Apex e.1 e.2 f r) (hag : Apex e.1 e.2 g r) : i ∈ x.1 ∧ overlap cs i := by
  obtain ⟨p, q⟩ := e
  simp only at he haf hag
  unfold Mix.edgeInput at hx
  rw [bind_eq_ok] at hx
  obtain ⟨around, ha, hx⟩ := hx
  rw [bind_eq_ok] at hx
  obtain ⟨l, hl, hx⟩ := hx
  simp only at hx ha
  obtain ⟨hl1, hl2⟩ := numbered_spec hl
  obtain ⟨hu1, hu2⟩ := aroundEdge_used hm ha
  obtain ⟨around', ha', hsorted, hmem⟩ := Props.C23_faces_around_edge hm he hu1 hu2
  rw [ha] at ha'; cases ha'
  have inl : ∀ {i : Nat} {f : Tri Nat}, fs[i]? = some f → Apex p q f r → i ∈ around ∧ (i, f) ∈ l := by
    intro i f hf hap
    obtain ⟨h1, h2, -⟩ := apex_mem hap
    have hi : i ∈ around := (hmem i).2 ⟨⟨f, hf, by simpa [Tri.toList] using h1⟩, ⟨f, hf, by simpa [Tri.toList] using h2⟩⟩
    refine ⟨hi, ?_⟩
    rw [← hl1] at hi
    obtain ⟨g, hg, rfl⟩ := List.mem_map.1 hi
    have := hl2 g hg
    rw [hf] at this
    rw [show (g.1, f) = g from by rw [Option.some.inj this]]
    exact hg
  obtain ⟨hi, hfl⟩ := inl hf haf
  obtain ⟨-, hgl⟩ := inl hg hag
  have hpq : pts p ≠ pts q := (proper_distinct (S.apex_ok (List.mem_of_getElem? hf) haf)).1
  have hb := hE.base _ (Radial.sub_ne hpq)
  cases hmk : mkFaces pts (E.base (sub (pts q) (pts p))).1 (E.base (sub (pts q) (pts p))).2 p q l with
  | exn w => rw [hmk] at hx; cases hx; cases hcs
  | ub w => rw [hmk] at hx; cases hx
  | ok es =>
    rw [hmk] at hx
    cases hx
    cases hcs
    have hswo := Props.C29_strict_weak_order hpq hb
    have hrel := mkFaces_rel hmk
    have hs := hE.sort es (fun a ha => hswo.1 a (hrel a ha)) (fun a ha b hb c hc => hswo.2.1 a b c (hrel a ha) (hrel b hb) (hrel c hc))
      (fun a ha b hb c hc => hswo.2.2 a b c (hrel a ha) (hrel b hb) (hrel c hc))
    have get : ∀ {i : Nat} {f : Tri Nat}, fs[i]? = some f → Apex p q f r → (i, f) ∈ l → ∃ k, k < ((E.sort es).map (·.entry)).length ∧ (nth ((E.sort es).map (·.entry)) k).r = r ∧ (nth ((E.sort es).map (·.entry)) k).fi = i := by
      intro i f hf hap hfl
      obtain ⟨a, ha, hmkf⟩ := mkFaces_mem hmk _ hfl
      obtain ⟨e1, e2⟩ := mkFace_entry (S.distinct (List.mem_of_getElem? hf)) hap hmkf
      have : a.entry ∈ (E.sort es).map (·.entry) := List.mem_map_of_mem (hs.1.mem_iff.2 ha)
      obtain ⟨k, hk, e⟩ := List.mem_iff_getElem.1 this
      refine ⟨k, hk, ?_⟩
      unfold nth
      rw [List.getD_eq_getElem?_getD, List.getElem?_eq_getElem hk, Option.getD_some, e]
      exact ⟨e1, e2⟩
    obtain ⟨k, hk, k1, k2⟩ := get hf haf hfl
    obtain ⟨k', hk', k1', k2'⟩ := get hg hag hgl
    refine ⟨hi, k, k', hk, hk', ?_, by rw [k1, k1'], k2⟩
    rintro rfl
    exact hij (k2.symm.trans k2')

theorem apex_coincide {p q r : Nat} {f g : Tri Nat} (h : Apex p q f r) (hs : SameFace f g ∨ SameFace f.flip g) : Apex p q g r := by
  obtain ⟨a, b, c⟩ := f
  obtain ⟨a', b', c'⟩ := g
  simp only [Apex, SameFace, Tri.rot, Tri.flip, Tri.mk.injEq] at *
  rcases h with (⟨rfl, rfl, rfl⟩ | ⟨rfl, rfl, rfl⟩ | ⟨rfl, rfl, rfl⟩) | (⟨rfl, rfl, rfl⟩ | ⟨rfl, rfl, rfl⟩ | ⟨rfl, rfl, rfl⟩) <;>
    rcases hs with (⟨rfl, rfl, rfl⟩ | ⟨rfl, rfl, rfl⟩ | ⟨rfl, rfl, rfl⟩) | (⟨rfl, rfl, rfl⟩ | ⟨rfl, rfl, rfl⟩ | ⟨rfl, rfl, rfl⟩) <;> simp

end Kigumi.Space

namespace Kigumi.Cutting
open Kigumi Outcome Geo Spec.Triangles Spec.Side FaceFace Space
open Kigumi.Spec (SameTri HasCorners operandTris IsBorder Apex SameFace)
open Kigumi.Side (ok_of_proper in_a in_b in_c)
variable {op : Bool → List (Tri P3)} {cut : Bool → Tri P3 → List (Tri P3)} {D : Type}

theorem is_side {f : Tri Nat} {v w : Nat} (hv : v ∈ f.toList) (hw : w ∈ f.toList) (h : v ≠ w) : Spec.IsSide f v w ∨ Spec.IsSide f w v := by
  obtain ⟨a, b, c⟩ := f
  simp only [Tri.toList, List.mem_cons, List.not_mem_nil, or_false] at hv hw
  simp only [Spec.IsSide]
  rcases hv with rfl | rfl | rfl <;> rcases hw with rfl | rfl | rfl <;> first | exact absurd rfl h | simp

/-- **What the local classification leaves to the global one.** The centre of a face without a tag is not on the surface of the other operand. -/
theorem unknown_off (h : Cuts op cut) (hgen : Agree op cut) (hman : ManifoldWhereCoinciding op) {m0 : Soup P3 (MixedData D)} {ts : List (Tri P3)} {border : List (Nat × Nat)} (hl : Laid op cut m0 ts border)
    {K : P3 → Prop} (hK : Zone K) (hwi : ∀ b, StaysIn K (op b)) (hcl : Clear K m0.faces (Mix.pts m0.points) (Mix.owner m0.data) border) {χ : Bool → P3 → Prop} (hb : ∀ b, BoundsIn K (op b) (χ b)) {E : Mix.Env} (hE : E.Valid op) {m : Mesh.Mesh} (hm : Mesh.Finalized m0.faces m) {edges : List (List Nat × Option (List Local.Entry))}
    (hedges : Mix.edgeInputs E m0.faces m (Mix.pts m0.points) border = ok edges) {tags1 : Nat → Tag} {w1 : Global.Warnings}
    (hr : Local.Result (Mix.env m0.faces m border (Mix.owner m0.data)) edges (Mix.tag m0.data) tags1 w1) {i : Nat} {f : Tri Nat} (hf : m0.faces[i]? = some f) (hu : tags1 i = .unknown) :
    ¬ Surface (op (!Mix.owner m0.data i)) (centre (tri (Mix.pts m0.points) f)) := by
  classical
  have hcor := laid_corefined h hgen hman hl
  have S := scene_of_cut (cut_in hcor.toCutInto hK hwi hb) hcor.points
  obtain ⟨T, hT0, hT, hcons, htag, hsurf⟩ := truth_in hcor hK hwi hcl hb hE
  have hc := hcons m edges hm hedges
  have hp : Spec.Proper m0.faces := fun f hf => S.distinct hf
  have ha := Local.meshEnv_adj hm hp border (Mix.owner m0.data)
  have hnbr := Local.meshEnv_nbr hm border (Mix.owner m0.data)
  obtain ⟨c, ws, order, hex, rfl, hret, -, -⟩ := hr
  obtain ⟨-, -, W, hW, hpost⟩ := Local.local_result_twin (ok := fun f t => t = T f) ha.lt (Props.spread_right hm hc) (fun g hg => (htag g hg).1) (fun _ => False)
    (by intro e he cs hcs; obtain ⟨inside, hi⟩ := hc.edge e he cs hcs; exact ⟨_, _, Local.edge_right hi, by simp⟩) hex
  have stays := Local.local_stays ha.lt hex
  rintro ⟨u, hu', hin⟩
  have hlen : m0.data.length = m0.faces.length := hl.data
  have dat : ∀ {i : Nat} {f : Tri Nat}, m0.faces[i]? = some f → ∃ d, m0.data[i]? = some d ∧ Mix.owner m0.data i = d.fromLeft ∧ Mix.tag m0.data i = d.tag := by
    intro i f hf
    have := (List.getElem?_eq_some_iff.1 hf).1
    have e : m0.data[i]? = some (m0.data[i]'(by rw [hlen]; exact this)) := List.getElem?_eq_getElem _
    exact ⟨_, e, by simp [Mix.owner, e], by simp [Mix.tag, e]⟩
  obtain ⟨d, hd, hown, htg⟩ := dat hf
  have hti := corner_tri hl.corners hf
  generalize hb' : d.fromLeft = b at *
  rw [hown] at hu'
  have unk : ∀ {j}, c.tags j = .unknown → Mix.tag m0.data j = .unknown := fun hj => by
    by_contra hne
    exact stays _ hne hj
  obtain ⟨t, ht, hpt, hct⟩ := hl.marked i _ d hti hd (htg ▸ unk hu)
  rw [hb'] at ht hpt hct
  -- the face coincides with a piece of the triangle
  obtain ⟨r, hr, hrin⟩ := (h.tri (!b) u hu').cover _ hin
  have hmr : Match (tri (Mix.pts m0.points) f) r :=
    inner_common ((h.tri b t ht).complex.proper _ hpt) (inner_centre _) (inCommon_iff.2 (com_pieces h hgen ht hu' hpt hr (inner_in (inner_centre _)) hrin))
  have hcu : ¬ Coincides op (!b) u := by
    rintro ⟨t2, ht2, hm2⟩
    obtain ⟨r', hr', hmr'⟩ := whole_partner h hu' ht2 hm2 hr
    rw [Bool.not_not] at ht2 hr'
    have := pieces_apart h ht ht2 hpt hr' (match_trans hmr hmr')
    subst this
    exact hct ⟨u, hu', match_symm hm2⟩
  have hpu : ∀ v ∈ (tri (Mix.pts m0.points) f).toList, In u v := fun v hv => (h.tri (!b) u hu').inside r hr v (in_corner ((match_mem hmr v).1 hv))
  let Z : Tri P3 → Prop := fun p => ∃ (i : Nat) (d : MixedData D), ts[i]? = some p ∧ m0.data[i]? = some d ∧ d.fromLeft = b ∧ c.tags i = .unknown
  -- the faces of the pieces of `t`
  have face : ∀ {b : Bool} {t p : Tri P3}, t ∈ op b → p ∈ cut b t → ∃ (j : Nat) (d : MixedData D) (g : Tri Nat), ts[j]? = some p ∧ m0.data[j]? = some d ∧ d.fromLeft = b ∧ m0.faces[j]? = some g ∧
      (m0.points[g.a]? = some p.a ∧ m0.points[g.b]? = some p.b ∧ m0.points[g.c]? = some p.c) := by
    intro b t p ht hp
    have : p ∈ operandTris ts m0.data b := by rw [hl.tris]; exact List.mem_flatMap.2 ⟨t, ht, hp⟩
    obtain ⟨j, d, h1, h2, h3⟩ := mem_operand.1 this
    obtain ⟨g, h4, h5⟩ := forall₂_get' hl.corners h1
    exact ⟨j, d, g, h1, h2, h3, h4, h5⟩
  have hZ : ∀ p ∈ cut b t, ∀ p' ∈ cut b t, Z p → (∀ v ∈ p'.toList, In u v) → ∀ x y, x ≠ y → (x ∈ p.toList ∧ y ∈ p.toList) → (x ∈ p'.toList ∧ y ∈ p'.toList) → ¬ BorderEdge op x y → Z p' := by
    rintro p hp' p' hpp ⟨i, d, h1, h2, h3, h4⟩ - x y hxy ⟨xp, yp⟩ ⟨xp', yp'⟩ hnb
    obtain ⟨f, hf, hcf⟩ := forall₂_get' hl.corners h1
    obtain ⟨j, d', g, k1, k2, k3, hg', hcg⟩ := face ht hpp
    refine ⟨j, d', k1, k2, k3, ?_⟩
    by_contra hne
    by_cases hij : i = j
    · subst hij; exact hne h4
    -- the common side
    obtain ⟨v, hv, ev⟩ := point_face hcf xp
    obtain ⟨w, hw, ew⟩ := point_face hcf yp
    obtain ⟨v', hv', ev'⟩ := point_face hcg xp'
    obtain ⟨w', hw', ew'⟩ := point_face hcg yp'
    have mf := List.mem_of_getElem? hf
    have mg := List.mem_of_getElem? hg'
    have e1 : v = v' := hl.points f mf g mg v hv v' hv' (ev.trans ev'.symm)
    have e2 : w = w' := hl.points f mf g mg w hw w' hw' (ew.trans ew'.symm)
    subst e1 e2
    have hvw : v ≠ w := by
      rintro rfl
      rw [ev] at ew
      exact hxy (Option.some.inj ew)
    have nobd : ¬ IsBorder border v w := by
      intro hB
      obtain ⟨x', y', hx', hy', hbe⟩ := hl.joined _ hB
      simp only at hx' hy'
      rcases Nat.le_total v w with hle | hle
      · rw [Nat.min_eq_left hle, ev] at hx'
        rw [Nat.max_eq_right hle, ew] at hy'
        cases hx'; cases hy'
        exact hnb hbe
      · rw [Nat.min_eq_right hle, ew] at hx'
        rw [Nat.max_eq_left hle, ev] at hy'
        cases hx'; cases hy'
        exact hnb (borderEdge_swap hbe)
    have inc : ∀ {z}, z ∈ g.toList → Spec.Incident m0.faces z j := fun hz => ⟨g, hg', by simpa [Tri.toList] using hz⟩
    have hsh : Spec.SharesNonBorder m0.faces border i j := by
      rcases is_side hv hw hvw with hs | hs
      · exact ⟨f, v, w, hf, hs, nobd, inc hv', inc hw'⟩
      · exact ⟨f, w, v, hf, hs, by unfold IsBorder at *; rwa [Nat.min_comm, Nat.max_comm], inc hw', inc hv'⟩
    have hnb' : i ∈ (Mix.env m0.faces m border (Mix.owner m0.data)).nbr j := hnbr.2 j i (Ne.symm hij) (Local.shares_symm hp hsh)
    -- the other face was not known before
    have h0 : Mix.tag m0.data j = .unknown := by
      have htag' : Mix.tag m0.data j = d'.tag := by simp [Mix.tag, k2]
      rw [htag']
      obtain ⟨t', ht', hpt', hc'⟩ := hl.piece j p' d' k1 k2
      rw [k3] at ht' hpt' hc'
      have := pieces_apart h ht ht' hpp hpt' (match_refl _)
      subst this
      rcases hc' with hc' | ⟨-, u', hu', hs⟩ | ⟨-, u', hu', hs⟩
      · exact hc'
      · exact absurd ⟨u', hu', Or.inl hs⟩ hct
      · exact absurd ⟨u', hu', Or.inr hs⟩ hct
    obtain ⟨n, hn, hWn⟩ := hW j (by rw [h0]; exact hne)
    exact (hpost n _ (hret n hn)).1 j hWn i hnb' h4
  obtain ⟨p', hp', ⟨j, d', h1, h2, h3, h4⟩, hpu', x, hx, y, hy, hxy, hbe⟩ := walk h ht hu' hct hcu hZ hpt hpu ⟨i, d, hti, hd, hb', hu⟩
  -- a face with a border edge
  obtain ⟨f', hf', hcf⟩ := forall₂_get' hl.corners h1
  obtain ⟨v, hv, ev⟩ := point_face hcf hx
  obtain ⟨w, hw, ew⟩ := point_face hcf hy
  have mf := List.mem_of_getElem? hf'
  have hB := hl.border f' mf v hv w hw x y ev ew hbe
  have hvw : v ≠ w := by
    rintro rfl
    rw [ev] at ew
    exact hxy (Option.some.inj ew)
  obtain ⟨e, he⟩ : ∃ e, e = (min v w, max v w) := ⟨_, rfl⟩
  have heB : e ∈ border := he ▸ hB
  have hmin : e.1 ∈ f'.toList ∧ e.2 ∈ f'.toList ∧ e.1 ≠ e.2 := by
    rw [he]
    rcases Nat.lt_or_gt_of_ne hvw with hlt | hlt
    · simp only [Nat.min_eq_left hlt.le, Nat.max_eq_right hlt.le]; exact ⟨hv, hw, hvw⟩
    · simp only [Nat.min_eq_right hlt.le, Nat.max_eq_left hlt.le]; exact ⟨hw, hv, hvw.symm⟩
  obtain ⟨a, hapex⟩ := apex_exists hmin.2.2 hmin.1 hmin.2.1
  -- its partner
  have prp := (h.tri b t ht).complex.proper p' hp'
  have q_of : ∀ {v : P3}, v ∈ p'.toList → Q t u v := fun hv => mark_q h ht hu' ((h.tri b t ht).corner _ hp' _ hv) (hpu' _ hv)
  have hwide : Wide t u := by
    obtain ⟨n1, n2, n3⟩ := proper_distinct prp
    exact ⟨p'.a, p'.b, p'.c, q_of (by simp [Tri.toList]), q_of (by simp [Tri.toList]), q_of (by simp [Tri.toList]), n1, n2, n3.symm⟩
  obtain ⟨r', hr', hmr'⟩ := hgen _ _ ht _ hu' hct hcu hwide _ hp' hpu'
  obtain ⟨k, d'', g, k1, k2, k3, hg', hcg⟩ := face hu' hr'
  have hjk : j ≠ k := by
    rintro rfl
    rw [h2] at k2; cases k2
    rw [h3] at k3
    cases b <;> cases k3
  have hsame := face_match hcf hcg (hl.points f' mf g (List.mem_of_getElem? hg')) hmr'
  obtain ⟨z, hz, hez⟩ := edgeInputs_get hedges e heB
  have inc : ∀ v, (∃ f ∈ m0.faces, v ∈ f.toList) → ∃ i, Spec.Incident m0.faces v i := by
    rintro v ⟨f, hf, hv⟩
    obtain ⟨i, hi⟩ := List.mem_iff_getElem?.1 hf
    exact ⟨i, f, hi, by simpa [Tri.toList] using hv⟩
  obtain ⟨z', hez', hz'⟩ := edgeInput_exists S hE hm hmin.2.2 (inc _ (hl.used e heB).1) (inc _ (hl.used e heB).2)
  rw [hez] at hez'; cases hez'
  cases hcs : z.2 with
  | none => exact hz' hcs
  | some cs =>
    obtain ⟨hjz, hov⟩ := edge_overlap S hE hm hmin.2.2 hez hcs hf' hg' hjk hapex (apex_coincide hapex hsame)
    obtain ⟨inside, hi⟩ := hc.edge z hz cs hcs
    obtain ⟨s, hs1, hs2, hs3⟩ := (Local.edge_right hi).ovKnown j hov
    obtain ⟨n, hn⟩ := List.mem_iff_getElem?.1 hz
    exact (hpost n _ (hret n (List.getElem?_eq_some_iff.1 hn).1)).2.2.2 z hn j hjz ⟨cs, s, hcs, hs1, hs2, hs3⟩ h4

end Kigumi.Cutting
