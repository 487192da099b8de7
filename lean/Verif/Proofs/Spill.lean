import Verif.Props.NonManifold

/-! # Tags of coinciding faces may spill over to other faces -/
namespace Kigumi.TagProg
open Kigumi Global

theorem wp_imp {ok : Nat → Tag → Prop} {Post Post' : (Nat → Bool) → (Nat → Prop) → Warnings → Prop} (h : ∀ K W w, Post K W w → Post' K W w) : ∀ (p : Prog) (K : Nat → Bool) (W : Nat → Prop), wp ok Post p K W → wp ok Post' p K W
  | .ret w, K, W, hp => h K W w hp
  | .fail, _, _, _ => trivial
  | .diverge, _, _, hp => hp
  | .read f k, K, W, hp => ⟨fun hf => wp_imp h _ _ _ (hp.1 hf), fun t h1 h2 => wp_imp h _ _ _ (hp.2 t h1 h2)⟩
  | .write f t k, K, W, hp => ⟨hp.1, hp.2.1, wp_imp h _ _ _ hp.2.2⟩

/-- What has been written stays written. -/
theorem wp_written {ok : Nat → Tag → Prop} {Post : (Nat → Bool) → (Nat → Prop) → Warnings → Prop} : ∀ (p : Prog) (K : Nat → Bool) (W : Nat → Prop), wp ok Post p K W → wp ok (fun K' W' w => Post K' W' w ∧ ∀ x, W x → W' x) p K W
  | .ret w, K, W, hp => ⟨hp, fun _ h => h⟩
  | .fail, _, _, _ => trivial
  | .diverge, _, _, hp => hp
  | .read f k, K, W, hp => ⟨fun hf => wp_written _ _ _ (hp.1 hf), fun t h1 h2 => wp_written _ _ _ (hp.2 t h1 h2)⟩
  | .write f t k, K, W, hp => ⟨hp.1, hp.2.1, wp_imp (fun _ _ _ h => ⟨h.1, fun x hx => h.2 x (Or.inl hx)⟩) _ _ _ (wp_written _ _ _ hp.2.2)⟩

end Kigumi.TagProg

namespace Kigumi.Local
open Kigumi TagProg Global
open Kigumi.Flood (set_same set_other)

theorem step1_writes {ok : Nat → Tag → Prop} {Post : (Nat → Bool) → (Nat → Prop) → Warnings → Prop} {cs : List Entry} {k : TagProg.Prog} : ∀ (is : List Nat) (K : Nat → Bool) (W : Nat → Prop), TagProg.wp ok Post (step1 cs is k) K W →
    TagProg.wp ok (fun K' W' w => Post K' W' w ∧ (∀ x, W x → W' x) ∧ ∀ i ∈ is, (nth cs i).r = (nth cs ((i + 1) % cs.length)).r → W' (nth cs i).fi ∧ W' (nth cs ((i + 1) % cs.length)).fi) (step1 cs is k) K W
  | [], K, W, h => wp_imp (fun _ _ _ h => ⟨h.1, h.2, by simp⟩) _ _ _ (wp_written _ _ _ h)
  | i :: is, K, W, h => by
    unfold step1 at h ⊢
    by_cases hr : (nth cs i).r = (nth cs ((i + 1) % cs.length)).r
    · simp only [hr, if_true] at h ⊢
      obtain ⟨h1, h2, h3, h4, h5⟩ := h
      refine ⟨h1, h2, h3, h4, wp_imp ?_ _ _ _ (step1_writes is _ _ h5)⟩
      rintro K' W' w ⟨p, q, r⟩
      refine ⟨p, fun x hx => q x (.inl (.inl hx)), fun j hj hjr => ?_⟩
      rcases List.mem_cons.1 hj with rfl | hj
      · exact ⟨q _ (.inl (.inr rfl)), q _ (.inr rfl)⟩
      · exact r j hj hjr
    · simp only [hr, if_false] at h ⊢
      refine wp_imp ?_ _ _ _ (step1_writes is _ _ h)
      rintro K' W' w ⟨p, q, r⟩
      refine ⟨p, q, fun j hj hjr => ?_⟩
      rcases List.mem_cons.1 hj with rfl | hj
      · exact absurd hjr hr
      · exact r j hj hjr

theorem findUntagged_map {ok : Nat → Tag → Prop} {Post Post' : (Nat → Bool) → (Nat → Prop) → Warnings → Prop} {W : Nat → Prop} {k : Bool → TagProg.Prog} : ∀ (l : List Nat) (K : Nat → Bool), TagProg.wp ok Post (findUntagged l k) K W →
    (∀ K' b, (∀ x, K x = true → K' x = true) → (b = false → ∀ x ∈ l, K' x = true) → TagProg.wp ok Post (k b) K' W → TagProg.wp ok Post' (k b) K' W) → TagProg.wp ok Post' (findUntagged l k) K W
  | [], K, h, hk => hk K false (fun _ h => h) (by simp) h
  | f :: fs, K, h, hk => by
    obtain ⟨h1, h2⟩ := h
    refine ⟨fun hf => ?_, ?_⟩
    · have := h1 hf
      simp only [if_true] at this ⊢
      exact hk K true (fun _ h => h) (by simp) this
    · intro t ht ho
      have := h2 t ht ho
      simp only [if_neg ht] at this ⊢
      refine findUntagged_map fs _ this (fun K' b h h' => hk K' b (fun x hx => h x (set_true_mono hx)) ?_)
      intro hb x hx
      rcases List.mem_cons.1 hx with rfl | hx
      · exact h x (set_same _ _ _)
      · exact h' hb x hx

/-- A call finds no face without a tag and writes nothing, or it writes the tags of coinciding faces. -/
theorem body_writes {E : Env} {ok : Nat → Tag → Prop} {Post : (Nat → Bool) → (Nat → Prop) → Warnings → Prop} {around : List Nat} {sorted : Option (List Entry)} (h : TagProg.wp ok Post (body E around sorted) (fun _ => false) (fun _ => False)) :
    TagProg.wp ok (fun K W w => Post K W w ∧ (((∀ x ∈ around, K x = true) ∧ ∀ x, ¬ W x) ∨ ∀ x, Twin sorted x → W x)) (body E around sorted) (fun _ => false) (fun _ => False) := by
  unfold body at h ⊢
  refine findUntagged_map _ _ h ?_
  intro K b _ hb hk
  cases b with
  | false => exact ⟨hk, .inl ⟨hb rfl, fun _ h => h⟩⟩
  | true =>
    simp only [if_true] at hk ⊢
    cases sorted with
    | none => exact trivial
    | some cs =>
      refine wp_imp ?_ _ _ _ (step1_writes _ _ _ hk)
      rintro K' W' w ⟨p, -, r⟩
      refine ⟨p, .inr ?_⟩
      rintro x ⟨cs', i, e, hi, hr, hx⟩
      cases e
      obtain ⟨h1, h2⟩ := r i (by simpa using hi) hr
      rcases hx with rfl | rfl
      · exact h1
      · exact h2

/-- What holds after the local classification, with what is written. -/
theorem local_writes {E : Env} {ok : Nat → Tag → Prop} (hn : ∀ f, ∀ g ∈ E.nbr f, g < E.n) (hsp : Spread E ok) {edges : List (List Nat × Option (List Entry))} {tags0 : Nat → Tag} (h0 : ∀ g, tags0 g ≠ .unknown → ok g (tags0 g))
    (he : ∀ e ∈ edges, ∀ cs, e.2 = some cs → ∃ Ov G, EdgeOK ok cs Ov G) {c : Cfg} (hex : Exec (start E edges tags0) c) :
    (∀ g, c.tags g ≠ .unknown → ok g (c.tags g)) ∧ ∃ W : Nat → Nat → Prop, (∀ g, c.tags g ≠ tags0 g → ∃ i, i < edges.length ∧ W i g) ∧
      ∀ i w, c.prog i = .ret w → (∀ x, W i x → ∀ g ∈ E.nbr x, c.tags g ≠ .unknown) ∧
        ∀ e, edges[i]? = some e → ((∀ x ∈ e.1, c.tags x ≠ .unknown) ∧ ∀ x, ¬ W i x) ∨ ∀ x, Twin e.2 x → W i x := by
  obtain ⟨K, W, hi⟩ := TagProg.Inv.exec (ok := ok)
    (Post := fun i K W w => match edges[i]? with
      | some e => BodyPost E ok e.1 e.2 False K W w ∧ (((∀ x ∈ e.1, K x = true) ∧ ∀ x, ¬ W x) ∨ ∀ x, Twin e.2 x → W x)
      | none => w = .none ∧ ∀ x, ¬ W x) (c0 := start E edges tags0) h0 (by
    intro i
    simp only [start]
    cases hei : edges[i]? with
    | none => exact ⟨rfl, by simp⟩
    | some e =>
      obtain ⟨around, sorted⟩ := e
      have hmem := List.mem_of_getElem? hei
      exact body_writes (body_wp hn hsp False fun cs hcs => by
        obtain ⟨Ov, G, h⟩ := he _ hmem cs hcs
        exact ⟨Ov, G, h, by simp⟩)) hex
  refine ⟨hi.allowed, W, ?_, ?_⟩
  · intro g hg
    obtain ⟨i, hw⟩ := hi.source g hg
    refine ⟨i, ?_, hw⟩
    by_contra hc
    have hnone : edges[i]? = none := List.getElem?_eq_none (by omega)
    have hstay : ∀ c, Exec (start E edges tags0) c → c.prog i = .ret .none := by
      intro c hc
      induction hc with
      | init => simp [start, hnone]
      | @step c c' j _ st ih =>
        by_cases hj : i = j
        · subst hj; cases st <;> simp_all
        · cases st <;> simp [set_other _ _ hj, ih]
    have := hi.wps i
    rw [hstay c hex, hnone] at this
    exact this.2 g hw
  · intro i w hr
    have := hi.wps i
    rw [hr] at this
    cases hei : edges[i]? with
    | none =>
      rw [hei] at this
      exact ⟨fun x hx => absurd hx (this.2 x), by simp⟩
    | some e =>
      rw [hei] at this
      obtain ⟨⟨h1, -⟩, h5⟩ := this
      refine ⟨fun x hx g hg => hi.known i g (h1 x hx g hg), ?_⟩
      intro e' he'
      cases he'
      rcases h5 with ⟨h5, h6⟩ | h5
      · exact .inl ⟨fun x hx => hi.known i x (h5 x hx), h6⟩
      · exact .inr h5

end Kigumi.Local

namespace Kigumi.Cutting
open Kigumi Geo Spec.Triangles Spec.Side FaceFace Space
open Kigumi.Spec (SameTri HasCorners operandTris IsBorder)
variable {D : Type} {op : Bool → List (Tri P3)} {cut : Bool → Tri P3 → List (Tri P3)}

/-! ## Operands that meet in common vertices and edges only: nothing is cut -/

theorem conforming_extreme (hW : Complex (op true ++ op false)) {b : Bool} {t u : Tri P3} (ht : t ∈ op b) (hu : u ∈ op (!b)) {x : P3} (hx : Extreme (Common t u) x) : x ∈ t.toList ∧ x ∈ u.toList := by
  have mem : ∀ {b : Bool} {t}, t ∈ op b → t ∈ op true ++ op false := by
    intro b t h
    cases b
    · exact List.mem_append_right _ h
    · exact List.mem_append_left _ h
  have hx' : Extreme (Common u t) x := ⟨⟨hx.1.2, hx.1.1⟩, fun y z hy hz => hx.2 y z ⟨hy.2, hy.1⟩ ⟨hz.2, hz.1⟩⟩
  exact ⟨ext_corner (ext_face (complex_face hW (mem ht) (mem hu)) (extreme_iff.1 hx)), ext_corner (ext_face (complex_face hW (mem hu) (mem ht)) (extreme_iff.1 hx'))⟩

theorem conforming_piece (hW : Complex (op true ++ op false)) (h : Cuts op cut) {b : Bool} {t p : Tri P3} (ht : t ∈ op b) (hp : p ∈ cut b t) : SameTri p t := by
  have ct := h.tri b t ht
  have mem : ∀ v ∈ p.toList, v ∈ t.toList := by
    intro v hv
    rcases ct.corner p hp v hv with ⟨-, u, hu, -, hx⟩ | h
    · exact (conforming_extreme hW ht hu hx).1
    · exact h
  obtain ⟨k, hk, ho⟩ := ct.oriented p hp
  exact same_oriented ((h.complex b).proper t ht) (match_of_mem (proper_distinct (ct.complex.proper p hp)) (mem _ (by simp [Tri.toList])) (mem _ (by simp [Tri.toList])) (mem _ (by simp [Tri.toList]))) hk ho

theorem conforming_border (hW : Complex (op true ++ op false)) {x y : P3} (h : BorderEdge op x y) : x ≠ y ∧ ∃ t ∈ op true, ∃ u ∈ op false, ¬ Coincides op true t ∧ ¬ Coincides op false u ∧ (x ∈ t.toList ∧ x ∈ u.toList) ∧ y ∈ t.toList ∧ y ∈ u.toList := by
  obtain ⟨t, ht, u, hu, h1, h2, h3, h4, h5, -⟩ := h
  exact ⟨h5, t, ht, u, hu, h1, h2, conforming_extreme (b := true) hW ht hu h3, conforming_extreme (b := true) hW ht hu h4⟩

theorem laid_data {m : Soup P3 (MixedData D)} {ts : List (Tri P3)} {border : List (Nat × Nat)} (hl : Laid op cut m ts border) {i : Nat} {f : Tri Nat} (hf : m.faces[i]? = some f) :
    ∃ d, m.data[i]? = some d ∧ Mix.owner m.data i = d.fromLeft ∧ Mix.tag m.data i = d.tag := by
  have := (List.getElem?_eq_some_iff.1 hf).1
  have e : m.data[i]? = some (m.data[i]'(by rw [hl.data]; exact this)) := List.getElem?_eq_getElem _
  exact ⟨_, e, by simp [Mix.owner, e], by simp [Mix.tag, e]⟩

/-- Every face is one of the triangles of its operand, with a tag if that coincides with one of the other operand. -/
theorem conforming_face (hW : Complex (op true ++ op false)) (h : Cuts op cut) {m : Soup P3 (MixedData D)} {ts : List (Tri P3)} {border : List (Nat × Nat)} (hl : Laid op cut m ts border) {i : Nat} {f : Tri Nat} (hf : m.faces[i]? = some f) :
    ∃ t ∈ op (Mix.owner m.data i), SameTri (tri (Mix.pts m.points) f) t ∧ ((Mix.tag m.data i = .unknown ∧ ¬ Coincides op (Mix.owner m.data i) t) ∨
      (Mix.tag m.data i = .coplanar ∧ ∃ u ∈ op (!Mix.owner m.data i), SameTri t u) ∨ (Mix.tag m.data i = .opposite ∧ ∃ u ∈ op (!Mix.owner m.data i), SameTri t.flip u)) := by
  obtain ⟨d, hd, e1, e2⟩ := laid_data hl hf
  have hti := corner_tri hl.corners hf
  obtain ⟨t, ht, hp, hc⟩ := hl.piece i _ d hti hd
  rw [e1, e2]
  refine ⟨t, ht, conforming_piece hW h ht hp, ?_⟩
  rcases hc with hu | hc
  · obtain ⟨t', ht', hp', hn⟩ := hl.marked i _ d hti hd hu
    have := pieces_apart h ht ht' hp hp' (match_refl _)
    subst this
    exact .inl ⟨hu, hn⟩
  · exact .inr hc

/-- Every triangle is one of the faces. -/
theorem conforming_has (hW : Complex (op true ++ op false)) (h : Cuts op cut) {m : Soup P3 (MixedData D)} {ts : List (Tri P3)} {border : List (Nat × Nat)} (hl : Laid op cut m ts border) {b : Bool} {t : Tri P3} (ht : t ∈ op b) :
    ∃ (i : Nat) (f : Tri Nat), m.faces[i]? = some f ∧ Mix.owner m.data i = b ∧ SameTri (tri (Mix.pts m.points) f) t := by
  obtain ⟨p, hp, -⟩ := (h.tri b t ht).cover t.a (Side.in_a t)
  have : p ∈ operandTris ts m.data b := by rw [hl.tris]; exact List.mem_flatMap.2 ⟨t, ht, hp⟩
  obtain ⟨j, d, h1, h2, h3⟩ := mem_operand.1 this
  obtain ⟨g, h4, h5⟩ := forall₂_get' hl.corners h1
  refine ⟨j, g, h4, by simp [Mix.owner, h2, h3], ?_⟩
  have := corner_tri hl.corners h4
  rw [h1] at this
  rw [← Option.some.inj this]
  exact conforming_piece hW h ht hp

/-- Faces with two common corners that are not joined by an edge of the intersection are neighbours. -/
theorem laid_shares {m : Soup P3 (MixedData D)} {ts : List (Tri P3)} {border : List (Nat × Nat)} (hl : Laid op cut m ts border) {i j : Nat} {f g : Tri Nat} (hf : m.faces[i]? = some f) (hg : m.faces[j]? = some g) {x y : P3} (hxy : x ≠ y)
    (hx : x ∈ (tri (Mix.pts m.points) f).toList ∧ x ∈ (tri (Mix.pts m.points) g).toList) (hy : y ∈ (tri (Mix.pts m.points) f).toList ∧ y ∈ (tri (Mix.pts m.points) g).toList) (hn : ¬ BorderEdge op x y) : Spec.SharesNonBorder m.faces border i j := by
  obtain ⟨f', e1, hcf⟩ := forall₂_get' hl.corners (corner_tri hl.corners hf)
  rw [hf] at e1; cases e1
  obtain ⟨g', e1, hcg⟩ := forall₂_get' hl.corners (corner_tri hl.corners hg)
  rw [hg] at e1; cases e1
  obtain ⟨v, hv, ev⟩ := point_face hcf hx.1
  obtain ⟨w, hw, ew⟩ := point_face hcf hy.1
  obtain ⟨v', hv', ev'⟩ := point_face hcg hx.2
  obtain ⟨w', hw', ew'⟩ := point_face hcg hy.2
  have mf := List.mem_of_getElem? hf
  have mg := List.mem_of_getElem? hg
  have e1 : v = v' := hl.points f mf g mg v hv v' hv' (ev.trans ev'.symm)
  have e2 : w = w' := hl.points f mf g mg w hw w' hw' (ew.trans ew'.symm)
  subst e1 e2
  have hvw : v ≠ w := by
    rintro rfl
    rw [ev] at ew
    exact hxy (Option.some.inj ew)
  have nobd : ¬ IsBorder border v w := by
    intro hB
    obtain ⟨x', y', hx', hy', hbe⟩ := hl.joined _ hB
    simp only at hx' hy'
    rcases Nat.le_total v w with hle | hle
    · rw [Nat.min_eq_left hle, ev] at hx'
      rw [Nat.max_eq_right hle, ew] at hy'
      cases hx'; cases hy'
      exact hn hbe
    · rw [Nat.min_eq_right hle, ew] at hx'
      rw [Nat.max_eq_left hle, ev] at hy'
      cases hx'; cases hy'
      exact hn (borderEdge_swap hbe)
  have inc : ∀ {z}, z ∈ g.toList → Spec.Incident m.faces z j := fun hz => ⟨g, hg, by simpa [Tri.toList] using hz⟩
  rcases is_side hv hw hvw with hs | hs
  · exact ⟨f, v, w, hf, hs, nobd, inc hv', inc hw'⟩
  · exact ⟨f, w, v, hf, hs, by unfold IsBorder at *; rwa [Nat.min_comm, Nat.max_comm], inc hw', inc hv'⟩

/-- Neighbours have two common corners that are not joined by an edge of the intersection. -/
theorem shares_laid {m : Soup P3 (MixedData D)} {ts : List (Tri P3)} {border : List (Nat × Nat)} (hl : Laid op cut m ts border) {i j : Nat} (h : Spec.SharesNonBorder m.faces border i j) (hp : Spec.Proper m.faces) :
    ∃ f g x y, m.faces[i]? = some f ∧ m.faces[j]? = some g ∧ x ≠ y ∧ (x ∈ (tri (Mix.pts m.points) f).toList ∧ x ∈ (tri (Mix.pts m.points) g).toList) ∧ (y ∈ (tri (Mix.pts m.points) f).toList ∧ y ∈ (tri (Mix.pts m.points) g).toList) ∧
      ¬ BorderEdge op x y := by
  obtain ⟨f, v, w, hf, hs, hn, ⟨g, hg, hv⟩, g', hg', hw⟩ := h
  rw [hg] at hg'; cases hg'
  have hvf : v ∈ f.toList ∧ w ∈ f.toList ∧ v ≠ w := by
    have := hp f (List.mem_of_getElem? hf)
    rcases hs with ⟨rfl, rfl⟩ | ⟨rfl, rfl⟩ | ⟨rfl, rfl⟩ <;> simp only [Tri.toList] <;> simp <;> tauto
  have tm : ∀ {f : Tri Nat} {v : Nat}, v ∈ f.toList → Mix.pts m.points v ∈ (tri (Mix.pts m.points) f).toList := by
    intro f v h
    simp only [Tri.toList, List.mem_cons, List.not_mem_nil, or_false, tri] at h ⊢
    rcases h with rfl | rfl | rfl <;> simp
  have sm : ∀ {i : Nat} {f : Tri Nat} {v : Nat}, m.faces[i]? = some f → v ∈ f.toList → m.points[v]? = some (Mix.pts m.points v) := by
    intro i f v hf hv
    obtain ⟨f', e1, hcf⟩ := forall₂_get' hl.corners (corner_tri hl.corners hf)
    rw [hf] at e1; cases e1
    obtain ⟨x, -, e⟩ := face_points hcf hv
    simp [Mix.pts, List.getD_eq_getElem?_getD, e]
  have hvg : v ∈ g.toList := by simpa [Tri.toList] using hv
  have hwg : w ∈ g.toList := by simpa [Tri.toList] using hw
  refine ⟨f, g, Mix.pts m.points v, Mix.pts m.points w, hf, hg, ?_, ⟨tm hvf.1, tm hvg⟩, ⟨tm hvf.2.1, tm hwg⟩, ?_⟩
  · intro e
    refine hvf.2.2 (hl.points f (List.mem_of_getElem? hf) f (List.mem_of_getElem? hf) v hvf.1 w hvf.2.1 ?_)
    rw [sm hf hvf.1, sm hf hvf.2.1, e]
  · exact fun hb => hn (hl.border f (List.mem_of_getElem? hf) v hvf.1 w hvf.2.1 _ _ (sm hf hvf.1) (sm hf hvf.2.1) hb)

theorem laid_point {m : Soup P3 (MixedData D)} {ts : List (Tri P3)} {border : List (Nat × Nat)} (hl : Laid op cut m ts border) {i : Nat} {f : Tri Nat} (hf : m.faces[i]? = some f) {v : Nat} (hv : v ∈ f.toList) :
    m.points[v]? = some (Mix.pts m.points v) ∧ Mix.pts m.points v ∈ (tri (Mix.pts m.points) f).toList := by
  obtain ⟨f', e1, hcf⟩ := forall₂_get' hl.corners (corner_tri hl.corners hf)
  rw [hf] at e1; cases e1
  obtain ⟨x, -, e⟩ := face_points hcf hv
  refine ⟨by simp [Mix.pts, List.getD_eq_getElem?_getD, e], ?_⟩
  simp only [Tri.toList, List.mem_cons, List.not_mem_nil, or_false, tri] at hv ⊢
  rcases hv with rfl | rfl | rfl <;> simp

/-- The vertex of a face at one of its corners. -/
theorem laid_vertex {m : Soup P3 (MixedData D)} {ts : List (Tri P3)} {border : List (Nat × Nat)} (hl : Laid op cut m ts border) {i : Nat} {f : Tri Nat} (hf : m.faces[i]? = some f) {x : P3} (hx : x ∈ (tri (Mix.pts m.points) f).toList) :
    ∃ v ∈ f.toList, m.points[v]? = some x := by
  obtain ⟨f', e1, hcf⟩ := forall₂_get' hl.corners (corner_tri hl.corners hf)
  rw [hf] at e1; cases e1
  exact point_face hcf hx

/-- Faces around an edge are found. -/
theorem _root_.Kigumi.Space.edge_around {fs : List (Tri Nat)} {E : Mix.Env} {m : Mesh.Mesh} {pts : Nat → P3} (hm : Mesh.Finalized fs m) {e : Nat × Nat} (he : e.1 ≠ e.2) {x : List Nat × Option (List Local.Entry)} (hx : Mix.edgeInput E fs m pts e = Outcome.ok x)
    {i : Nat} {f : Tri Nat} (hf : fs[i]? = some f) (h1 : e.1 ∈ f.toList) (h2 : e.2 ∈ f.toList) : i ∈ x.1 := by
  obtain ⟨p, q⟩ := e
  simp only at he h1 h2
  unfold Mix.edgeInput at hx
  rw [Outcome.bind_eq_ok] at hx
  obtain ⟨around, ha, hx⟩ := hx
  rw [Outcome.bind_eq_ok] at hx
  obtain ⟨l, hl, hx⟩ := hx
  simp only at hx ha
  obtain ⟨hu1, hu2⟩ := aroundEdge_used hm ha
  obtain ⟨around', ha', hsorted, hmem⟩ := Props.C23_faces_around_edge hm he hu1 hu2
  rw [ha] at ha'; cases ha'
  have hi : i ∈ around := (hmem i).2 ⟨⟨f, hf, by simpa [Tri.toList] using h1⟩, ⟨f, hf, by simpa [Tri.toList] using h2⟩⟩
  split at hx <;> first | (cases hx; exact hi) | cases hx

end Kigumi.Cutting
