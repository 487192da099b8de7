import Verif.Proofs.PiecesComplex
import Verif.Proofs.Mixed
import Verif.Spec.Refine

/-! # From the pieces of triangulated operands to a soup of faces -/
namespace Kigumi.Cutting
open Kigumi Geo Spec.Triangles Spec.Side FaceFace Space
open Kigumi.Spec (SameTri HasCorners operandTris IsBorder Apex SameFace HasEdge Seams Coincide)
open Kigumi.Side (Aff plane Ok ok_of_proper in_a in_b in_c)
variable {op : Bool → List (Tri P3)} {cut : Bool → Tri P3 → List (Tri P3)} {D : Type}

/-! ## Lists -/

theorem once_pairwise {ts : List (Tri P3)} : Once ts ↔ ts.Pairwise fun t u => ¬ Match t u := by
  rw [List.pairwise_iff_getElem]
  constructor
  · intro h i j hi hj hij hm
    have := h i j _ _ (List.getElem?_eq_getElem hi) (List.getElem?_eq_getElem hj) hm
    omega
  · intro h i j t u ht hu hm
    obtain ⟨hi, rfl⟩ := List.getElem?_eq_some_iff.1 ht
    obtain ⟨hj, rfl⟩ := List.getElem?_eq_some_iff.1 hu
    by_contra hne
    rcases Nat.lt_or_gt_of_ne hne with h' | h'
    · exact h i j hi hj h' hm
    · exact h j i hj hi h' (match_symm hm)

theorem operand_index {ts : List (Tri P3)} {data : List (MixedData D)} {b : Bool} (ho : Once (operandTris ts data b)) {i j : Nat} {t u : Tri P3} {d e : MixedData D} (ht : ts[i]? = some t) (hu : ts[j]? = some u)
    (hd : data[i]? = some d) (he : data[j]? = some e) (hdb : d.fromLeft = b) (heb : e.fromLeft = b) (hm : Match t u) : i = j := by
  rw [once_pairwise, operandTris, List.pairwise_map, List.pairwise_filter, List.pairwise_iff_getElem] at ho
  have z : ∀ {i : Nat} {t : Tri P3} {d : MixedData D}, ts[i]? = some t → data[i]? = some d → ∃ h : i < (ts.zip data).length, (ts.zip data)[i] = (t, d) := by
    intro i t d h1 h2
    obtain ⟨a1, rfl⟩ := List.getElem?_eq_some_iff.1 h1
    obtain ⟨a2, rfl⟩ := List.getElem?_eq_some_iff.1 h2
    exact ⟨by rw [List.length_zip]; omega, by rw [List.getElem_zip]⟩
  obtain ⟨li, ei⟩ := z ht hd
  obtain ⟨lj, ej⟩ := z hu he
  by_contra hne
  rcases Nat.lt_or_gt_of_ne hne with h' | h'
  · exact ho i j li lj h' (by rw [ei]; simp [hdb]) (by rw [ej]; simp [heb]) (by rw [ei, ej]; exact hm)
  · exact ho j i lj li h' (by rw [ej]; simp [heb]) (by rw [ei]; simp [hdb]) (by rw [ei, ej]; exact match_symm hm)

theorem refines_flatMap (f : Tri P3 → List (Tri P3)) (ts : List (Tri P3)) (hp : ∀ t ∈ ts, ∀ p ∈ f t, (∀ x, In p x → In t x) ∧ ∃ k > 0, outward p = ⟨k * (outward t).x, k * (outward t).y, k * (outward t).z⟩)
    (hc : ∀ t ∈ ts, ∀ x, In t x → Surface (f t) x) : ∃ src, Refines ts (ts.flatMap f) src := by
  induction ts with
  | nil => exact ⟨id, ⟨by simp, by simp⟩⟩
  | cons t ts ih =>
    obtain ⟨src, h⟩ := ih (fun t ht => hp t (List.mem_cons_of_mem _ ht)) (fun t ht => hc t (List.mem_cons_of_mem _ ht))
    refine ⟨fun i => if i < (f t).length then 0 else src (i - (f t).length) + 1, ⟨?_, ?_⟩⟩
    · intro i p hi
      rw [List.flatMap_cons] at hi
      by_cases hl : i < (f t).length
      · rw [List.getElem?_append_left hl] at hi
        refine ⟨t, by simp [hl], hp t List.mem_cons_self p (List.mem_of_getElem? hi)⟩
      · rw [List.getElem?_append_right (by omega)] at hi
        obtain ⟨t', h1, h2⟩ := h.part _ _ hi
        exact ⟨t', by simp [hl, h1], h2⟩
    · intro j t' x hj hx
      rw [List.flatMap_cons]
      cases j with
      | zero =>
        simp only [List.getElem?_cons_zero, Option.some.injEq] at hj
        subst hj
        obtain ⟨p, hp', hx'⟩ := hc t List.mem_cons_self x hx
        obtain ⟨i, hi⟩ := List.mem_iff_getElem?.1 hp'
        have hl := (List.getElem?_eq_some_iff.1 hi).1
        exact ⟨i, p, by rw [List.getElem?_append_left hl]; exact hi, by simp [hl], hx'⟩
      | succ j =>
        rw [List.getElem?_cons_succ] at hj
        obtain ⟨i, p, h1, h2, h3⟩ := h.cover j t' x hj hx
        exact ⟨i + (f t).length, p, by rw [List.getElem?_append_right (by omega), Nat.add_sub_cancel]; exact h1, by simp [h2], h3⟩

/-! ## Orientation -/

theorem outward_rot (t : Tri P3) : outward t.rot = outward t := by
  apply p3_ext <;> simp only [outward, Tri.rot] <;> ring

theorem outward_flip (t : Tri P3) : outward t.flip = ⟨-(outward t).x, -(outward t).y, -(outward t).z⟩ := by
  apply p3_ext <;> simp only [outward, Tri.flip] <;> ring

theorem outward_sameTri {t u : Tri P3} (h : SameTri t u) : outward u = outward t := by
  rcases h with rfl | rfl | rfl
  · rfl
  · exact outward_rot t
  · rw [outward_rot, outward_rot]

/-- A piece that has the corners of its triangle has them in the same order. -/
theorem same_oriented {p t : Tri P3} (ht : Proper t) (hm : Match p t) {k : ℚ} (hk : 0 < k) (ho : outward p = ⟨k * (outward t).x, k * (outward t).y, k * (outward t).z⟩) : SameTri p t := by
  rcases hm with h | h
  · exact h
  · exfalso
    have e := outward_sameTri h
    rw [outward_flip] at e
    apply ht
    rw [ho] at e
    have e1 : (outward t).x = -(k * (outward t).x) := congrArg (·.x) e
    have e2 : (outward t).y = -(k * (outward t).y) := congrArg (·.y) e
    have e3 : (outward t).z = -(k * (outward t).z) := congrArg (·.z) e
    have z : ∀ {m : ℚ}, m = -(k * m) → m = 0 := by
      intro m h
      have : (1 + k) * m = 0 := by linarith
      exact (mul_eq_zero.1 this).resolve_left (by linarith)
    apply p3_ext
    · exact z e1
    · exact z e2
    · exact z e3

/-! ## The soup -/

/-- The faces of the soup are the pieces. -/
structure Laid (op : Bool → List (Tri P3)) (cut : Bool → Tri P3 → List (Tri P3)) (m : Soup P3 (MixedData D)) (ts : List (Tri P3)) (border : List (Nat × Nat)) : Prop where
  data : m.data.length = m.faces.length
  corners : HasCorners m.points m.faces ts
  tris : ∀ b, operandTris ts m.data b = (op b).flatMap (cut b)
  piece : ∀ (i : Nat) (p : Tri P3) (d : MixedData D), ts[i]? = some p → m.data[i]? = some d → ∃ t ∈ op d.fromLeft, p ∈ cut d.fromLeft t ∧
    (d.tag = .unknown ∨ (d.tag = .coplanar ∧ ∃ u ∈ op (!d.fromLeft), SameTri t u) ∨ (d.tag = .opposite ∧ ∃ u ∈ op (!d.fromLeft), SameTri t.flip u))
  points : ∀ f ∈ m.faces, ∀ g ∈ m.faces, ∀ v ∈ f.toList, ∀ w ∈ g.toList, m.points[v]? = m.points[w]? → v = w
  edges : ∀ e ∈ border, e.1 ≠ e.2
  marked : ∀ (i : Nat) (p : Tri P3) (d : MixedData D), ts[i]? = some p → m.data[i]? = some d → d.tag = .unknown → ∃ t ∈ op d.fromLeft, p ∈ cut d.fromLeft t ∧ ¬ Coincides op d.fromLeft t
  used : ∀ e ∈ border, (∃ f ∈ m.faces, e.1 ∈ f.toList) ∧ ∃ f ∈ m.faces, e.2 ∈ f.toList
  joined : ∀ e ∈ border, ∃ x y, m.points[e.1]? = some x ∧ m.points[e.2]? = some y ∧ BorderEdge op x y
  border : ∀ f ∈ m.faces, ∀ p ∈ f.toList, ∀ q ∈ f.toList, ∀ x y : P3, m.points[p]? = some x → m.points[q]? = some y → BorderEdge op x y → IsBorder border p q

theorem borderEdge_swap {c d : P3} (h : BorderEdge op c d) : BorderEdge op d c := by
  obtain ⟨t, ht, u, hu, h1, h2, h3, h4, h5, h6⟩ := h
  refine ⟨t, ht, u, hu, h1, h2, h4, h3, h5.symm, ?_⟩
  have sw : ∀ {a b e : P3}, SameEdge a b e c d → SameEdge a b e d c := by
    rintro a b e (⟨h, h'⟩ | ⟨h, h'⟩ | ⟨h, h'⟩)
    exacts [.inl ⟨h', h⟩, .inr (.inl ⟨h', h⟩), .inr (.inr ⟨h', h⟩)]
  rcases h6 with h | h | h
  · exact .inl (sw h)
  · exact .inr (.inl (sw h))
  · exact .inr (.inr fun x hx => (h x hx).symm)

theorem once_pieces (h : Cuts op cut) (b : Bool) : Once ((op b).flatMap (cut b)) := by
  rw [once_pairwise, List.pairwise_flatMap]
  refine ⟨fun t ht => once_pairwise.1 (h.tri b t ht).once, ?_⟩
  have := once_pairwise.1 (h.once b)
  refine (List.Pairwise.and_mem.1 this).imp ?_
  intro t u ⟨ht, hu, hn⟩ p hp r hr hm
  have := pieces_apart h ht hu hp hr hm
  subst this
  exact hn (match_refl _)

theorem mem_operand {ts : List (Tri P3)} {data : List (MixedData D)} {b : Bool} {p : Tri P3} : p ∈ operandTris ts data b ↔ ∃ (i : Nat) (d : MixedData D), ts[i]? = some p ∧ data[i]? = some d ∧ d.fromLeft = b := by
  simp only [operandTris, List.mem_map, List.mem_filter]
  constructor
  · rintro ⟨⟨t, d⟩, ⟨hm, hb⟩, rfl⟩
    obtain ⟨i, hi⟩ := List.mem_iff_getElem?.1 hm
    rw [List.getElem?_zip_eq_some] at hi
    exact ⟨i, d, hi.1, hi.2, by simpa using hb⟩
  · rintro ⟨i, d, h1, h2, rfl⟩
    exact ⟨(p, d), ⟨List.mem_of_getElem? (List.getElem?_zip_eq_some.2 ⟨h1, h2⟩), by simp⟩, rfl⟩

theorem forall₂_get {α β : Type} {R : α → β → Prop} {l : List α} {m : List β} (h : List.Forall₂ R l m) {i : Nat} {a : α} (ha : l[i]? = some a) : ∃ b, m[i]? = some b ∧ R a b := by
  induction h generalizing i with
  | nil => simp at ha
  | cons h _ ih =>
    cases i with
    | zero =>
      rw [List.getElem?_cons_zero] at ha
      cases ha
      exact ⟨_, rfl, h⟩
    | succ i => exact ih ha

theorem forall₂_get' {α β : Type} {R : α → β → Prop} {l : List α} {m : List β} (h : List.Forall₂ R l m) {i : Nat} {b : β} (hb : m[i]? = some b) : ∃ a, l[i]? = some a ∧ R a b := forall₂_get h.flip hb

/-- The corners of a face as points. -/
theorem face_points {points : List P3} {f : Tri Nat} {t : Tri P3} (h : points[f.a]? = some t.a ∧ points[f.b]? = some t.b ∧ points[f.c]? = some t.c) {v : Nat} (hv : v ∈ f.toList) :
    ∃ x ∈ t.toList, points[v]? = some x := by
  simp only [Tri.toList, List.mem_cons, List.not_mem_nil, or_false] at hv
  rcases hv with rfl | rfl | rfl
  · exact ⟨t.a, by simp [Tri.toList], h.1⟩
  · exact ⟨t.b, by simp [Tri.toList], h.2.1⟩
  · exact ⟨t.c, by simp [Tri.toList], h.2.2⟩

theorem point_face {points : List P3} {f : Tri Nat} {t : Tri P3} (h : points[f.a]? = some t.a ∧ points[f.b]? = some t.b ∧ points[f.c]? = some t.c) {x : P3} (hx : x ∈ t.toList) :
    ∃ v ∈ f.toList, points[v]? = some x := by
  simp only [Tri.toList, List.mem_cons, List.not_mem_nil, or_false] at hx
  rcases hx with rfl | rfl | rfl
  · exact ⟨f.a, by simp [Tri.toList], h.1⟩
  · exact ⟨f.b, by simp [Tri.toList], h.2.1⟩
  · exact ⟨f.c, by simp [Tri.toList], h.2.2⟩

theorem apex_mem {p q r : Nat} {f : Tri Nat} (h : Apex p q f r) : p ∈ f.toList ∧ q ∈ f.toList := by
  rcases h with (rfl | rfl | rfl) | (rfl | rfl | rfl) <;> simp [Tri.toList, Tri.rot]

/-- Faces whose corners coincide coincide. -/
theorem face_match {points : List P3} {f g : Tri Nat} {t u : Tri P3} (hf : points[f.a]? = some t.a ∧ points[f.b]? = some t.b ∧ points[f.c]? = some t.c)
    (hg : points[g.a]? = some u.a ∧ points[g.b]? = some u.b ∧ points[g.c]? = some u.c) (inj : ∀ v ∈ f.toList, ∀ w ∈ g.toList, points[v]? = points[w]? → v = w) (hm : Match t u) : SameFace f g ∨ SameFace f.flip g := by
  obtain ⟨a, b, c⟩ := f
  obtain ⟨a', b', c'⟩ := g
  obtain ⟨x, y, z⟩ := t
  obtain ⟨x', y', z'⟩ := u
  simp only at hf hg
  simp only [Tri.toList, List.mem_cons, List.not_mem_nil, or_false, forall_eq_or_imp, forall_eq, hf.1, hf.2.1, hf.2.2, hg.1, hg.2.1, hg.2.2, Option.some.injEq] at inj
  obtain ⟨⟨i1, i2, i3⟩, ⟨i4, i5, i6⟩, i7, i8, i9⟩ := inj
  simp only [Match, SameTri, Tri.rot, Tri.flip, Tri.mk.injEq] at hm
  simp only [SameFace, Tri.rot, Tri.flip, Tri.mk.injEq]
  rcases hm with (⟨rfl, rfl, rfl⟩ | ⟨rfl, rfl, rfl⟩ | ⟨rfl, rfl, rfl⟩) | (⟨rfl, rfl, rfl⟩ | ⟨rfl, rfl, rfl⟩ | ⟨rfl, rfl, rfl⟩)
  · exact Or.inl (Or.inl ⟨(i1 rfl).symm, (i5 rfl).symm, (i9 rfl).symm⟩)
  · exact Or.inl (Or.inr (Or.inl ⟨(i4 rfl).symm, (i8 rfl).symm, (i3 rfl).symm⟩))
  · exact Or.inl (Or.inr (Or.inr ⟨(i7 rfl).symm, (i2 rfl).symm, (i6 rfl).symm⟩))
  · exact Or.inr (Or.inl ⟨(i1 rfl).symm, (i8 rfl).symm, (i6 rfl).symm⟩)
  · exact Or.inr (Or.inr (Or.inl ⟨(i7 rfl).symm, (i5 rfl).symm, (i3 rfl).symm⟩))
  · exact Or.inr (Or.inr (Or.inr ⟨(i4 rfl).symm, (i2 rfl).symm, (i9 rfl).symm⟩))

/-- The soup of the pieces: the operands have been cut into its faces. -/
theorem laid_cutInto (h : Cuts op cut) (hgen : Agree op cut) {m : Soup P3 (MixedData D)} {ts : List (Tri P3)} {border : List (Nat × Nat)} (hl : Laid op cut m ts border) : CutInto op m ts border := by
  have hlen : ts.length = m.faces.length := hl.corners.length_eq.symm
  have dat : ∀ {i : Nat} {p : Tri P3}, ts[i]? = some p → ∃ d, m.data[i]? = some d := by
    intro i p hp
    have := (List.getElem?_eq_some_iff.1 hp).1
    exact ⟨_, List.getElem?_eq_getElem (by rw [hl.data, ← hlen]; exact this)⟩
  have honce : ∀ b, Once (operandTris ts m.data b) := fun b => by rw [hl.tris b]; exact once_pieces h b
  have proper : ∀ {b : Bool} {t k : Tri P3}, t ∈ op b → k ∈ cut b t → Proper k := fun ht hk => (h.tri _ _ ht).complex.proper _ hk
  refine ⟨hl.data, hl.corners, ⟨?_, ?_⟩, honce, ?_, hl.points, hl.edges, ?_⟩
  · intro p hp
    obtain ⟨i, hi⟩ := List.mem_iff_getElem?.1 hp
    obtain ⟨d, hd⟩ := dat hi
    obtain ⟨t, ht, hpt, -⟩ := hl.piece i p d hi hd
    exact proper ht hpt
  · intro p hp r hr x hx hx'
    obtain ⟨i, hi⟩ := List.mem_iff_getElem?.1 hp
    obtain ⟨d, hd⟩ := dat hi
    obtain ⟨t, ht, hpt, -⟩ := hl.piece i p d hi hd
    obtain ⟨j, hj⟩ := List.mem_iff_getElem?.1 hr
    obtain ⟨d', hd'⟩ := dat hj
    obtain ⟨u, hu, hru, -⟩ := hl.piece j r d' hj hd'
    exact inCommon_iff.2 (com_pieces h hgen ht hu hpt hru hx hx')
  · intro b
    rw [hl.tris b]
    exact refines_flatMap (cut b) (op b) (fun t ht p hp => ⟨(h.tri b t ht).inside p hp, (h.tri b t ht).oriented p hp⟩) (fun t ht x hx => (h.tri b t ht).cover x hx)
  · rintro ⟨p, d⟩ hx
    obtain ⟨i, hi⟩ := List.mem_iff_getElem?.1 hx
    rw [List.getElem?_zip_eq_some] at hi
    obtain ⟨t, ht, hp, htag⟩ := hl.piece i p d hi.1 hi.2
    have tri := h.tri _ t ht
    -- the piece is the whole triangle
    have key : ∀ u ∈ op (!d.fromLeft), Match t u → SameTri p t ∧ ∃ r ∈ operandTris ts m.data (!d.fromLeft), SameTri r u := by
      intro u hu hm
      obtain ⟨k, hk, ho⟩ := tri.oriented p hp
      have h1 := same_oriented ((h.complex _).proper t ht) (whole h ht ⟨u, hu, hm⟩ hp) hk ho
      obtain ⟨r, hr, _⟩ := (h.tri _ u hu).cover u.a (in_a u)
      obtain ⟨k', hk', ho'⟩ := (h.tri _ u hu).oriented r hr
      refine ⟨h1, r, ?_, same_oriented ((h.complex _).proper u hu) (whole h hu (coincides_symm ht hm) hr) hk' ho'⟩
      rw [hl.tris]; exact List.mem_flatMap.2 ⟨u, hu, hr⟩
    rcases htag with hd | ⟨hd, u, hu, hs⟩ | ⟨hd, u, hu, hs⟩
    · exact Or.inl hd
    · obtain ⟨h1, r, hr, h2⟩ := key u hu (Or.inl hs)
      exact Or.inr (Or.inl ⟨hd, r, hr, sameTri_trans h1 (sameTri_trans hs (sameTri_symm h2))⟩)
    · obtain ⟨h1, r, hr, h2⟩ := key u hu (Or.inr hs)
      exact Or.inr (Or.inr ⟨hd, r, hr, sameTri_trans (sameTri_flip h1) (sameTri_trans hs (sameTri_symm h2))⟩)

/-- **The soup of the pieces is corefined.** -/
theorem laid_corefined (h : Cuts op cut) (hgen : Agree op cut) (hman : ManifoldWhereCoinciding op) {m : Soup P3 (MixedData D)} {ts : List (Tri P3)} {border : List (Nat × Nat)} (hl : Laid op cut m ts border) :
    Corefined op m ts border := by
  have hlen : ts.length = m.faces.length := hl.corners.length_eq.symm
  have dat : ∀ {i : Nat} {p : Tri P3}, ts[i]? = some p → ∃ d, m.data[i]? = some d := by
    intro i p hp
    have := (List.getElem?_eq_some_iff.1 hp).1
    exact ⟨_, List.getElem?_eq_getElem (by rw [hl.data, ← hlen]; exact this)⟩
  have own : ∀ {i : Nat} {d : MixedData D}, m.data[i]? = some d → ownerOf m.data i = d.fromLeft := by
    intro i d hd; simp [ownerOf, hd]
  have honce : ∀ b, Once (operandTris ts m.data b) := fun b => by rw [hl.tris b]; exact once_pieces h b
  -- a face with an edge, as a piece
  have edge : ∀ {p q i : Nat}, HasEdge m.faces p q i → ∃ f ∈ m.faces, ∃ k t d, m.faces[i]? = some f ∧ ts[i]? = some k ∧ m.data[i]? = some d ∧ ownerOf m.data i = d.fromLeft ∧ t ∈ op d.fromLeft ∧ k ∈ cut d.fromLeft t ∧
      (m.points[f.a]? = some k.a ∧ m.points[f.b]? = some k.b ∧ m.points[f.c]? = some k.c) ∧ p ∈ f.toList ∧ q ∈ f.toList := by
    rintro p q i ⟨f, r, hf, ha⟩
    obtain ⟨k, hk, hc⟩ := forall₂_get hl.corners hf
    obtain ⟨d, hd⟩ := dat hk
    obtain ⟨t, ht, hp, -⟩ := hl.piece i k d hk hd
    exact ⟨f, List.mem_of_getElem? hf, k, t, d, hf, hk, hd, own hd, ht, hp, hc, apex_mem ha⟩
  have proper : ∀ {b : Bool} {t k : Tri P3}, t ∈ op b → k ∈ cut b t → Proper k := fun ht hk => (h.tri _ _ ht).complex.proper _ hk
  -- the seam at an edge that is not a border edge
  have main : ∀ p q, ¬ IsBorder border p q → ∀ i j, HasEdge m.faces p q i → HasEdge m.faces p q j → ownerOf m.data i ≠ ownerOf m.data j → ∃ x y, m.points[p]? = some x ∧ m.points[q]? = some y ∧
      ((∀ b', ∀ t' ∈ op b', ∀ k ∈ cut b' t', x ∈ k.toList → y ∈ k.toList → ∃ u' ∈ op (!b'), ∃ k' ∈ cut (!b') u', Match k k') ∧
      ∀ b', ∀ t1 ∈ op b', ∀ k1 ∈ cut b' t1, ∀ t2 ∈ op b', ∀ k2 ∈ cut b' t2, ∀ t3 ∈ op b', ∀ k3 ∈ cut b' t3, (x ∈ k1.toList ∧ y ∈ k1.toList) → (x ∈ k2.toList ∧ y ∈ k2.toList) → (x ∈ k3.toList ∧ y ∈ k3.toList) →
        Match k1 k2 ∨ Match k2 k3 ∨ Match k1 k3) := by
    intro p q hb i j hi hj hne
    have hi0 := hi
    obtain ⟨f, hf, k, t, d, hfi, hk, hd, o, ht, hkt, hc, hp, hq⟩ := edge hi
    obtain ⟨f', hf', k', t', d', hfj, hk', hd', o', ht', hkt', hc', hp', hq'⟩ := edge hj
    obtain ⟨x, hx, ex⟩ := face_points hc hp
    obtain ⟨y, hy, ey⟩ := face_points hc hq
    obtain ⟨x', hx', ex'⟩ := face_points hc' hp'
    obtain ⟨y', hy', ey'⟩ := face_points hc' hq'
    rw [ex] at ex'; cases ex'
    rw [ey] at ey'; cases ey'
    rw [o, o'] at hne
    have hbb : d'.fromLeft = !d.fromLeft := by
      cases h1 : d.fromLeft <;> cases h2 : d'.fromLeft <;> simp_all
    rw [hbb] at ht' hkt'
    have hxy : x ≠ y := by
      rintro rfl
      -- the vertices are different ids with different points
      obtain ⟨g, r, hg, ha⟩ := hi0
      rw [hfi] at hg; cases hg
      have hpq : p = q := hl.points f hf f hf p hp q hq (ex.trans ey.symm)
      subst hpq
      have hpr := proper ht hkt
      obtain ⟨n1, n2, n3⟩ := proper_distinct hpr
      obtain ⟨c1, c2, c3⟩ := hc
      rcases ha with (rfl | rfl | rfl) | (rfl | rfl | rfl) <;> simp only [Tri.rot] at c1 c2 c3 <;> rw [ex] at * <;> simp_all
    exact ⟨x, y, ex, ey, seam h hgen hman ht ht' hkt hkt' hxy ⟨hx, hy⟩ ⟨hx', hy'⟩ fun hB => hb (hl.border f hf p hp q hq x y ex ey hB)⟩
  refine ⟨laid_cutInto h hgen hl, ⟨?_, ?_⟩⟩
  · intro p q hb i j hi hj hne k k' k'' hk hk' hk'' e1 e2
    obtain ⟨x, y, ex, ey, -, H⟩ := main p q hb i j hi hj hne
    obtain ⟨f1, -, k1, t1, d1, -, g1, dd1, o1, m1, c1, cc1, p1, q1⟩ := edge hk
    obtain ⟨f2, -, k2, t2, d2, -, g2, dd2, o2, m2, c2, cc2, p2, q2⟩ := edge hk'
    obtain ⟨f3, -, k3, t3, d3, -, g3, dd3, o3, m3, c3, cc3, p3, q3⟩ := edge hk''
    have at_ : ∀ {f : Tri Nat} {k : Tri P3}, (m.points[f.a]? = some k.a ∧ m.points[f.b]? = some k.b ∧ m.points[f.c]? = some k.c) → p ∈ f.toList → q ∈ f.toList → x ∈ k.toList ∧ y ∈ k.toList := by
      intro f k hc hp hq
      obtain ⟨x', hx', e⟩ := face_points hc hp
      obtain ⟨y', hy', e'⟩ := face_points hc hq
      rw [ex] at e; rw [ey] at e'; cases e; cases e'
      exact ⟨hx', hy'⟩
    rw [o1, o2] at e1
    rw [o2, o3] at e2
    rw [e1] at m1 c1
    rw [← e2] at m3 c3
    rcases H _ t1 m1 k1 c1 t2 m2 k2 c2 t3 m3 k3 c3 (at_ cc1 p1 q1) (at_ cc2 p2 q2) (at_ cc3 p3 q3) with hm | hm | hm
    · exact Or.inl (operand_index (honce _) g1 g2 dd1 dd2 e1 rfl hm)
    · exact Or.inr (Or.inl (operand_index (honce _) g2 g3 dd2 dd3 rfl e2.symm hm))
    · exact Or.inr (Or.inr (operand_index (honce _) g1 g3 dd1 dd3 e1 e2.symm hm))
  · intro p q hb i j hi hj hne k hk
    obtain ⟨x, y, ex, ey, H, -⟩ := main p q hb i j hi hj hne
    obtain ⟨f1, hf1, k1, t1, d1, hfk, g1, dd1, o1, m1, c1, cc1, p1, q1⟩ := edge hk
    obtain ⟨x', hx', e⟩ := face_points cc1 p1
    obtain ⟨y', hy', e'⟩ := face_points cc1 q1
    rw [ex] at e; rw [ey] at e'; cases e; cases e'
    obtain ⟨u', hu', k2, hk2, hm⟩ := H _ t1 m1 k1 c1 hx' hy'
    have : k2 ∈ operandTris ts m.data (!d1.fromLeft) := by
      rw [hl.tris]; exact List.mem_flatMap.2 ⟨u', hu', hk2⟩
    obtain ⟨i2, d2, g2, dd2, hb2⟩ := mem_operand.1 this
    obtain ⟨f2, hf2, cc2⟩ := forall₂_get' hl.corners g2
    refine ⟨i2, ?_, f1, f2, hfk, hf2, face_match cc1 cc2 (hl.points f1 hf1 f2 (List.mem_of_getElem? hf2)) hm⟩
    rw [own dd1, own dd2, hb2]; simp

end Kigumi.Cutting
