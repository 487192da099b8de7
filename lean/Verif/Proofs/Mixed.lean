import Verif.Proofs.Tags
import Verif.Spec.Refine
import Verif.Model.Mix
import Verif.Props.Classify
import Verif.Props.Side

/-! # Classification of cut faces gives right tags -/
namespace Kigumi.Space
open Kigumi Geo Spec.Triangles Spec.Side FaceFace Fan Outcome
open Kigumi.Spec (SameTri Apex SameFace AngleAround RegionsAround RightTagAround HasEdge Seams Coincide SharesNonBorder IsBorder HasCorners operandTris)
open Kigumi.Side (Ok near_refl near_mono near_trans shift_near ok_of_proper onSegment_self)
open Kigumi.Radial (IsBase FaceAround radialLt IsSortOf mkFaces mkFace)
variable {D : Type}

/-! ## Cut triangles -/

theorem refines_surface {orig pieces : List (Tri P3)} {src : Nat → Nat} (h : Refines orig pieces src) (x : P3) : Surface orig x ↔ Surface pieces x := by
  constructor
  · rintro ⟨t, ht, hin⟩
    obtain ⟨j, hj⟩ := List.mem_iff_getElem?.1 ht
    obtain ⟨i, p, hp, -, hin'⟩ := h.cover j t x hj hin
    exact ⟨p, List.mem_of_getElem? hp, hin'⟩
  · rintro ⟨p, hp, hin⟩
    obtain ⟨i, hi⟩ := List.mem_iff_getElem?.1 hp
    obtain ⟨t, ht, hsub, -⟩ := h.part i p hi
    exact ⟨t, List.mem_of_getElem? ht, hsub x hin⟩

/-- Pieces bound what the triangles bound. -/
theorem refines_in {orig pieces : List (Tri P3)} {src : Nat → Nat} (h : Refines orig pieces src) {K χ : P3 → Prop} (hb : BoundsIn K orig χ) : BoundsIn K pieces χ where
  const x y hx hy hxy := hb.const x y hx hy (fun z hz hs => hxy z hz ((refines_surface h z).1 hs))
  jump i p x hp hs hxK := by
    obtain ⟨t, ht, hsub, k, hk, hout⟩ := h.part i p hp
    obtain ⟨p', hp', hin, huniq⟩ := hs
    rw [hp] at hp'; cases hp'
    obtain ⟨e, he, hj⟩ := hb.jump (src i) t x ht ⟨t, ht, hsub x hin, by
      intro j u hu hin'
      obtain ⟨i', p', hp', hsrc, hin''⟩ := h.cover j u x hu hin'
      rw [← hsrc, huniq i' p' hp' hin'']⟩ hxK
    refine ⟨e / k, div_pos he hk, fun s h0 h1 => ?_⟩
    have hsk : s * k ≤ e := by rwa [le_div_iff₀ hk] at h1
    have e1 : ∀ c : ℚ, shift x (c * s) (outward p) = shift x (c * (s * k)) (outward t) := by
      intro c
      rw [hout]
      apply p3_ext <;> simp only [shift] <;> ring
    have e2 := e1 (-1)
    have e3 := e1 1
    simp only [neg_mul, one_mul] at e2 e3
    rw [e2, e3]
    exact hj (s * k) (mul_pos h0 hk) hsk

theorem refines_bounds {orig pieces : List (Tri P3)} {src : Nat → Nat} (h : Refines orig pieces src) {χ : P3 → Prop} (hb : Spec.Side.Bounds orig χ) : Spec.Side.Bounds pieces χ :=
  (refines_in h hb.whole).of_whole

theorem line_outward {p q r : P3} {b1 b2 b3 : ℚ} {B C : P3} (h1 : p = combo 0 b1 (1 - b1) B B C) (h2 : q = combo 0 b2 (1 - b2) B B C) (h3 : r = combo 0 b3 (1 - b3) B B C) : outward ⟨p, q, r⟩ = ⟨0, 0, 0⟩ := by
  subst h1 h2 h3
  apply p3_ext <;> simp only [outward, combo] <;> ring

/-- Inner points of a triangle with area are inner points of every triangle that contains it. -/
theorem inner_sub {p t : Tri P3} (hp : Proper p) (h : ∀ x, In p x → In t x) {x : P3} (hx : Inner p x) : Inner t x := by
  obtain ⟨u, v, w, hs, rfl, hu, hv, hw⟩ := hx
  simp only [Weight, if_true] at hu hv hw
  obtain ⟨a1, b1, c1, s1, e1, k1, k2, k3⟩ := h _ (Side.in_a p)
  obtain ⟨a2, b2, c2, s2, e2, l1, l2, l3⟩ := h _ (Side.in_b p)
  obtain ⟨a3, b3, c3, s3, e3, m1, m2, m3⟩ := h _ (Side.in_c p)
  have zero : ∀ x y z : ℚ, 0 ≤ x → 0 ≤ y → 0 ≤ z → 0 < u * x + v * y + w * z ∨ (x = 0 ∧ y = 0 ∧ z = 0) := by
    intro x y z hx hy hz
    rcases lt_or_eq_of_le hx with h | h
    · left; positivity
    rcases lt_or_eq_of_le hy with h' | h'
    · left; positivity
    rcases lt_or_eq_of_le hz with h'' | h''
    · left; positivity
    · exact Or.inr ⟨h.symm, h'.symm, h''.symm⟩
  have hne : ∀ {B C : P3} {x y z : ℚ}, p.a = combo 0 x (1 - x) B B C → p.b = combo 0 y (1 - y) B B C → p.c = combo 0 z (1 - z) B B C → False := fun h1 h2 h3 => hp (line_outward h1 h2 h3)
  have ha : 0 < u * a1 + v * a2 + w * a3 := by
    rcases zero _ _ _ k1 l1 m1 with h | ⟨rfl, rfl, rfl⟩
    · exact h
    refine (hne (B := t.b) (C := t.c) (x := b1) (y := b2) (z := b3) ?_ ?_ ?_).elim
    · rw [e1, show c1 = 1 - b1 by linarith]; apply p3_ext <;> simp [combo]
    · rw [e2, show c2 = 1 - b2 by linarith]; apply p3_ext <;> simp [combo]
    · rw [e3, show c3 = 1 - b3 by linarith]; apply p3_ext <;> simp [combo]
  have hb : 0 < u * b1 + v * b2 + w * b3 := by
    rcases zero _ _ _ k2 l2 m2 with h | ⟨rfl, rfl, rfl⟩
    · exact h
    refine (hne (B := t.a) (C := t.c) (x := a1) (y := a2) (z := a3) ?_ ?_ ?_).elim
    · rw [e1, show c1 = 1 - a1 by linarith]; apply p3_ext <;> simp [combo]
    · rw [e2, show c2 = 1 - a2 by linarith]; apply p3_ext <;> simp [combo]
    · rw [e3, show c3 = 1 - a3 by linarith]; apply p3_ext <;> simp [combo]
  have hc : 0 < u * c1 + v * c2 + w * c3 := by
    rcases zero _ _ _ k3 l3 m3 with h | ⟨rfl, rfl, rfl⟩
    · exact h
    refine (hne (B := t.a) (C := t.b) (x := a1) (y := a2) (z := a3) ?_ ?_ ?_).elim
    · rw [e1, show b1 = 1 - a1 by linarith]; apply p3_ext <;> simp [combo]
    · rw [e2, show b2 = 1 - a2 by linarith]; apply p3_ext <;> simp [combo]
    · rw [e3, show b3 = 1 - a3 by linarith]; apply p3_ext <;> simp [combo]
  refine ⟨_, _, _, ?_, ?_, by simpa [Weight] using ha, by simpa [Weight] using hb, by simpa [Weight] using hc⟩
  · linear_combination u * s1 + v * s2 + w * s3 + hs
  · rw [e1, e2, e3]; apply p3_ext <;> simp only [combo] <;> ring

theorem refines_within {orig pieces : List (Tri P3)} {src : Nat → Nat} (h : Refines orig pieces src) (hp : ∀ p ∈ pieces, Proper p) {K : P3 → Prop} (hw : StaysIn K orig) : StaysIn K pieces := by
  intro p hpm x hx
  obtain ⟨i, hi⟩ := List.mem_iff_getElem?.1 hpm
  obtain ⟨t, ht, hsub, -⟩ := h.part i p hi
  exact hw t (List.mem_of_getElem? ht) x (inner_sub (hp p hpm) hsub hx)

/-! ## Lists of corners -/

theorem forall2_get {α β : Type} {R : α → β → Prop} {l : List α} {l' : List β} (h : List.Forall₂ R l l') {i : Nat} {a : α} (ha : l[i]? = some a) : ∃ b, l'[i]? = some b ∧ R a b := by
  induction h generalizing i with
  | nil => simp at ha
  | cons hr _ ih =>
    cases i with
    | zero => simp at ha; subst ha; exact ⟨_, by simp, hr⟩
    | succ i => simp at ha; obtain ⟨b, h1, h2⟩ := ih ha; exact ⟨b, by simpa using h1, h2⟩

theorem forall2_get' {α β : Type} {R : α → β → Prop} {l : List α} {l' : List β} (h : List.Forall₂ R l l') {i : Nat} {b : β} (hb : l'[i]? = some b) : ∃ a, l[i]? = some a ∧ R a b := by
  obtain ⟨a, h1, h2⟩ := forall2_get (List.Forall₂.flip h) hb
  exact ⟨a, h1, h2⟩

theorem pts_some {points : List P3} {v : Nat} {x : P3} (h : points[v]? = some x) : Mix.pts points v = x := by
  simp [Mix.pts, List.getD, h]

theorem corner_tri {points : List P3} {fs : List (Tri Nat)} {ts : List (Tri P3)} (hc : HasCorners points fs ts) {i : Nat} {f : Tri Nat} (hf : fs[i]? = some f) : ts[i]? = some (tri (Mix.pts points) f) := by
  obtain ⟨t, ht, h1, h2, h3⟩ := forall2_get hc hf
  rw [ht]
  congr 1
  unfold tri
  rw [pts_some h1, pts_some h2, pts_some h3]

theorem corner_face {points : List P3} {fs : List (Tri Nat)} {ts : List (Tri P3)} (hc : HasCorners points fs ts) {i : Nat} {t : Tri P3} (ht : ts[i]? = some t) :
    ∃ f, fs[i]? = some f ∧ t = tri (Mix.pts points) f := by
  obtain ⟨f, hf, -⟩ := forall2_get' hc ht
  refine ⟨f, hf, ?_⟩
  rw [corner_tri hc hf] at ht
  exact (Option.some.inj ht).symm

theorem corner_used {points : List P3} {fs : List (Tri Nat)} {ts : List (Tri P3)} (hc : HasCorners points fs ts) {f : Tri Nat} (hf : f ∈ fs) {v : Nat} (hv : v ∈ f.toList) :
    points[v]? = some (Mix.pts points v) := by
  obtain ⟨i, hi⟩ := List.mem_iff_getElem?.1 hf
  obtain ⟨t, -, h1, h2, h3⟩ := forall2_get hc hi
  simp only [Tri.toList, List.mem_cons, List.not_mem_nil, or_false] at hv
  rcases hv with rfl | rfl | rfl
  · rw [pts_some h1, h1]
  · rw [pts_some h2, h2]
  · rw [pts_some h3, h3]

theorem operand_mem {points : List P3} {fs : List (Tri Nat)} {ts : List (Tri P3)} {data : List (MixedData D)} (hd : data.length = fs.length) (hc : HasCorners points fs ts) {b : Bool} {u : Tri P3} :
    u ∈ operandTris ts data b ↔ ∃ i f, fs[i]? = some f ∧ Mix.owner data i = b ∧ u = tri (Mix.pts points) f := by
  simp only [operandTris, List.mem_map, List.mem_filter, beq_iff_eq]
  constructor
  · rintro ⟨x, ⟨hx, hb⟩, rfl⟩
    obtain ⟨i, hi⟩ := List.mem_iff_getElem?.1 hx
    rw [List.getElem?_zip_eq_some] at hi
    obtain ⟨f, hf, e⟩ := corner_face hc hi.1
    exact ⟨i, f, hf, by simp [Mix.owner, hi.2, hb], e⟩
  · rintro ⟨i, f, hf, hb, rfl⟩
    have hi : i < data.length := by rw [hd]; exact (List.getElem?_eq_some_iff.1 hf).1
    refine ⟨(tri (Mix.pts points) f, data[i]), ⟨List.mem_iff_getElem?.2 ⟨i, ?_⟩, ?_⟩, rfl⟩
    · rw [List.getElem?_zip_eq_some]
      exact ⟨corner_tri hc hf, List.getElem?_eq_getElem hi⟩
    · simp only [Mix.owner, List.getElem?_eq_getElem hi, Option.map_some, Option.getD_some] at hb
      exact hb

theorem once_pairwise {ts : List (Tri P3)} : Once ts ↔ ts.Pairwise (fun t u => ¬ Match t u) := by
  rw [List.pairwise_iff_getElem]
  constructor
  · intro h i j hi hj hij hm
    have := h i j _ _ (List.getElem?_eq_getElem hi) (List.getElem?_eq_getElem hj) hm
    omega
  · intro h i j t u ht hu hm
    obtain ⟨hi, rfl⟩ := List.getElem?_eq_some_iff.1 ht
    obtain ⟨hj, rfl⟩ := List.getElem?_eq_some_iff.1 hu
    rcases Nat.lt_trichotomy i j with hij | hij | hij
    · exact absurd hm (h i j hi hj hij)
    · exact hij
    · exact absurd (match_symm hm) (h j i hj hi hij)

/-- The cut faces as a scene. -/
theorem scene_of_cut {K : P3 → Prop} {m : Soup P3 (MixedData D)} {ts : List (Tri P3)} {χ : Bool → P3 → Prop} (hc : Cut K m ts χ)
    (hp : ∀ f ∈ m.faces, ∀ g ∈ m.faces, ∀ v ∈ f.toList, ∀ w ∈ g.toList, m.points[v]? = m.points[w]? → v = w) : Scene K m.faces (Mix.pts m.points) (Mix.owner m.data) χ where
  proper f hf := by
    obtain ⟨i, hi⟩ := List.mem_iff_getElem?.1 hf
    exact hc.complex.proper _ (List.mem_of_getElem? (corner_tri hc.corners hi))
  meet f hf g hg x hx hy := by
    obtain ⟨i, hi⟩ := List.mem_iff_getElem?.1 hf
    obtain ⟨j, hj⟩ := List.mem_iff_getElem?.1 hg
    exact hc.complex.meet _ (List.mem_of_getElem? (corner_tri hc.corners hi)) _ (List.mem_of_getElem? (corner_tri hc.corners hj)) x hx hy
  inj f hf g hg v hv w hw e := hp f hf g hg v hv w hw (by rw [corner_used hc.corners hf hv, corner_used hc.corners hg hw, e])
  once i j f g hf hg ho hm := by
    have hpw := once_pairwise.1 (hc.once (Mix.owner m.data i))
    simp only [operandTris, List.pairwise_map, List.pairwise_filter, beq_iff_eq] at hpw
    rw [List.pairwise_iff_getElem] at hpw
    have hlen : (ts.zip m.data).length = m.faces.length := by rw [List.length_zip, hc.data, List.Forall₂.length_eq hc.corners]; simp
    have key : ∀ (i j : Nat) (f g : Tri Nat), m.faces[i]? = some f → m.faces[j]? = some g → i < j → Mix.owner m.data i = Mix.owner m.data j → Match (tri (Mix.pts m.points) f) (tri (Mix.pts m.points) g) →
        (∀ (i_1 j : ℕ) (_hi : i_1 < (ts.zip m.data).length) (_hj : j < (ts.zip m.data).length), i_1 < j → (ts.zip m.data)[i_1].2.fromLeft = Mix.owner m.data i → (ts.zip m.data)[j].2.fromLeft = Mix.owner m.data i →
          ¬ Match (ts.zip m.data)[i_1].1 (ts.zip m.data)[j].1) → False := by
      intro i j f g hf hg hij ho hm hpw
      have hi : i < m.faces.length := (List.getElem?_eq_some_iff.1 hf).1
      have hj : j < m.faces.length := (List.getElem?_eq_some_iff.1 hg).1
      have e1 := corner_tri hc.corners hf
      have e2 := corner_tri hc.corners hg
      obtain ⟨hi', e1'⟩ := List.getElem?_eq_some_iff.1 e1
      obtain ⟨hj', e2'⟩ := List.getElem?_eq_some_iff.1 e2
      have hid : i < m.data.length := by rw [hc.data]; exact hi
      have hjd : j < m.data.length := by rw [hc.data]; exact hj
      refine hpw i j (by omega) (by omega) hij ?_ ?_ ?_
      · simp [Mix.owner, List.getElem?_eq_getElem hid]
      · rw [ho]; simp [Mix.owner, List.getElem?_eq_getElem hjd]
      · simp only [List.getElem_zip]
        rw [e1', e2']
        exact hm
    rcases Nat.lt_trichotomy i j with hij | hij | hij
    · exact (key i j f g hf hg hij ho hm hpw).elim
    · exact hij
    · rw [ho] at hpw
      exact (key j i g f hg hf hij ho.symm (match_symm hm) hpw).elim
  zone := hc.zone
  within f hf x hx := by
    obtain ⟨i, hi⟩ := List.mem_iff_getElem?.1 hf
    exact hc.within _ (List.mem_of_getElem? (corner_tri hc.corners hi)) x hx
  const b y z hy hz h := (hc.bounds b).const y z hy hz (fun w hw hs => by
    obtain ⟨u, hu, hin⟩ := hs
    obtain ⟨i, f, hf, ho, rfl⟩ := (operand_mem hc.data hc.corners).1 hu
    exact h w hw i f hf ho hin)
  jump i f y hf hy := by
    have hm : tri (Mix.pts m.points) f ∈ operandTris ts m.data (Mix.owner m.data i) := (operand_mem hc.data hc.corners).2 ⟨i, f, hf, rfl, rfl⟩
    obtain ⟨k, hk⟩ := List.mem_iff_getElem?.1 hm
    exact (hc.bounds _).jump k _ y hk (part_singly hc.complex (part_operand ts m.data _) (hc.once _) hk hy) (by
      obtain ⟨j, hj⟩ := List.mem_iff_getElem?.1 (List.mem_of_getElem? hf)
      exact hc.within _ (List.mem_of_getElem? (corner_tri hc.corners hj)) y hy)

theorem cut_in {orig : Bool → List (Tri P3)} {m : Soup P3 (MixedData D)} {ts : List (Tri P3)} {border : List (Nat × Nat)} (h : CutInto orig m ts border) {K : P3 → Prop} (hK : Zone K)
    (hw : ∀ b, StaysIn K (orig b)) {χ : Bool → P3 → Prop} (hb : ∀ b, BoundsIn K (orig b) (χ b)) : Cut K m ts χ where
  data := h.data
  corners := h.corners
  complex := h.complex
  once := h.once
  zone := hK
  within t ht x hx := by
    obtain ⟨i, hi⟩ := List.mem_iff_getElem?.1 ht
    obtain ⟨f, hf, e⟩ := corner_face h.corners hi
    obtain ⟨src, hr⟩ := h.refines (Mix.owner m.data i)
    refine refines_within hr (fun p hp => ?_) (hw _) t ((operand_mem h.data h.corners).2 ⟨i, f, hf, rfl, e⟩) x hx
    obtain ⟨k, g, hg, -, rfl⟩ := (operand_mem h.data h.corners).1 hp
    exact h.complex.proper _ (List.mem_of_getElem? (corner_tri h.corners hg))
  bounds b := by
    obtain ⟨src, hr⟩ := h.refines b
    exact refines_in hr (hb b)

theorem cut_of_corefined {orig : Bool → List (Tri P3)} {m : Soup P3 (MixedData D)} {ts : List (Tri P3)} {border : List (Nat × Nat)} (h : CutInto orig m ts border) {χ : Bool → P3 → Prop}
    (hb : ∀ b, Spec.Side.Bounds (orig b) (χ b)) : Cut Whole m ts χ :=
  cut_in h zone_whole (fun _ => within_whole _) (fun b => (hb b).whole)

/-! ## Right tags of faces and of triangles -/

theorem rightTag_of_right {m : Soup P3 (MixedData D)} {ts : List (Tri P3)} (hd : m.data.length = m.faces.length) (hc : HasCorners m.points m.faces ts) {χ : Bool → P3 → Prop} {i : Nat} {f : Tri Nat} {t : Tag}
    (h : Right m.faces (Mix.pts m.points) (Mix.owner m.data) χ i f t) : RightTag (tri (Mix.pts m.points) f) (operandTris ts m.data (!Mix.owner m.data i)) (χ (!Mix.owner m.data i)) t := by
  cases t with
  | unknown => exact h
  | coplanar =>
    obtain ⟨j, g, hg, ho, hs⟩ := h
    exact ⟨_, (operand_mem hd hc).2 ⟨j, g, hg, bool_ne ho, rfl⟩, hs⟩
  | opposite =>
    obtain ⟨j, g, hg, ho, hs⟩ := h
    exact ⟨_, (operand_mem hd hc).2 ⟨j, g, hg, bool_ne ho, rfl⟩, hs⟩
  | interior =>
    refine ⟨fun u hu => ?_, h.2⟩
    obtain ⟨j, g, hg, ho, rfl⟩ := (operand_mem hd hc).1 hu
    exact h.1 j g hg (by rw [ho]; simp)
  | exterior =>
    refine ⟨fun u hu => ?_, h.2⟩
    obtain ⟨j, g, hg, ho, rfl⟩ := (operand_mem hd hc).1 hu
    exact h.1 j g hg (by rw [ho]; simp)

/-! ## The input of the classification of an edge -/

theorem numbered_spec {fs : List (Tri Nat)} {is : List Nat} {l : List (Nat × Tri Nat)} (h : Mix.numbered fs is = ok l) : l.map (·.1) = is ∧ ∀ g ∈ l, fs[g.1]? = some g.2 := by
  induction is generalizing l with
  | nil => cases h; simp
  | cons i is ih =>
    simp only [Mix.numbered] at h
    rw [bind_eq_ok] at h
    obtain ⟨f, hf, h⟩ := h
    rw [bind_eq_ok] at h
    obtain ⟨l', hl', h⟩ := h
    cases h
    obtain ⟨h1, h2⟩ := ih hl'
    refine ⟨by simp [h1], ?_⟩
    intro g hg
    rcases List.mem_cons.1 hg with rfl | hg
    · exact at!_ok.1 hf
    · exact h2 g hg

theorem edgeInputs_mem {E : Mix.Env} {fs : List (Tri Nat)} {m : Mesh.Mesh} {pts : Nat → P3} {border : List (Nat × Nat)} {edges : List (List Nat × Option (List Local.Entry))}
    (h : Mix.edgeInputs E fs m pts border = ok edges) : ∀ x ∈ edges, ∃ e ∈ border, Mix.edgeInput E fs m pts e = ok x := by
  induction border generalizing edges with
  | nil => cases h; simp
  | cons e es ih =>
    simp only [Mix.edgeInputs] at h
    rw [bind_eq_ok] at h
    obtain ⟨x, hx, h⟩ := h
    rw [bind_eq_ok] at h
    obtain ⟨xs, hxs, h⟩ := h
    cases h
    intro y hy
    rcases List.mem_cons.1 hy with rfl | hy
    · exact ⟨e, by simp, hx⟩
    · obtain ⟨e', he', h'⟩ := ih hxs y hy
      exact ⟨e', by simp [he'], h'⟩

theorem aroundEdge_used {fs : List (Tri Nat)} {m : Mesh.Mesh} (h : Mesh.Finalized fs m) {v w : Nat} {l : List Nat} (hl : Mesh.aroundEdge m v w = ok l) :
    (∃ u i, v ≤ u ∧ Spec.Incident fs u i) ∧ ∃ u i, w ≤ u ∧ Spec.Incident fs u i := by
  constructor
  · by_contra hc
    have := Props.C23_unused_vertex_throws h (v := v) (w := w) (fun u i hi => by by_contra hlt; exact hc ⟨u, i, by omega, hi⟩)
    rw [this] at hl; cases hl
  · by_contra hc
    have := Props.C23_unused_vertex_throws h (v := w) (w := v) (fun u i hi => by by_contra hlt; exact hc ⟨u, i, by omega, hi⟩)
    unfold Mesh.aroundEdge at this hl
    rw [bind_eq_ok] at hl
    obtain ⟨is, h1, hl⟩ := hl
    rw [bind_eq_ok] at hl
    obtain ⟨js, h2, hl⟩ := hl
    rw [h2, ok_bind, h1, ok_bind] at this
    cases this

theorem mkFaces_rel {pts : Nat → P3} {u v : P3} {p q : Nat} {l : List (Nat × Tri Nat)} {es : List FaceAround} (h : mkFaces pts u v p q l = ok es) : ∀ e ∈ es, ∃ fi f, mkFace pts u v p q fi f = ok e := by
  induction l generalizing es with
  | nil => cases h; simp
  | cons g l ih =>
    obtain ⟨fi, f⟩ := g
    simp only [mkFaces] at h
    rw [bind_eq_ok] at h
    obtain ⟨x, hx, h⟩ := h
    rw [bind_eq_ok] at h
    obtain ⟨xs, hxs, h⟩ := h
    cases h
    intro e he
    rcases List.mem_cons.1 he with rfl | he
    · exact ⟨fi, f, hx⟩
    · exact ih hxs e he

theorem consistent_nil (owner : Nat → Bool) (T : Nat → Tag) : ∃ inside, Local.Consistent owner T [] inside :=
  ⟨fun _ _ => true, ⟨⟨fun i hi => absurd hi (by simp), fun _ => rfl⟩, fun i j hi => absurd hi (by simp), fun i hi => absurd hi (by simp)⟩⟩

theorem edge_consistent {K : P3 → Prop} {fs : List (Tri Nat)} {pts : Nat → P3} {owner : Nat → Bool} {χ : Bool → P3 → Prop} (S : Scene K fs pts owner χ) {E : Mix.Env} {orig : Bool → List (Tri P3)} (hE : E.Valid orig)
    {m : Mesh.Mesh} (hm : Mesh.Finalized fs m) {T : Nat → Tag} {e : Nat × Nat} (hT : ∀ (i : Nat) (f : Tri Nat), fs[i]? = some f → e.1 ∈ f.toList → e.2 ∈ f.toList → Right fs pts owner χ i f (T i)) (he : e.1 ≠ e.2)
    (hmK : (∃ i, HasEdge fs e.1 e.2 i) → K (mid (pts e.1) (pts e.2))) {x : List Nat × Option (List Local.Entry)} (hx : Mix.edgeInput E fs m pts e = ok x) {cs : List Local.Entry} (hcs : x.2 = some cs) : ∃ inside, Local.Consistent owner T cs inside := by
  obtain ⟨p, q⟩ := e
  simp only at he
  unfold Mix.edgeInput at hx
  rw [bind_eq_ok] at hx
  obtain ⟨around, ha, hx⟩ := hx
  rw [bind_eq_ok] at hx
  obtain ⟨l, hl, hx⟩ := hx
  simp only at hx ha
  obtain ⟨hl1, hl2⟩ := numbered_spec hl
  obtain ⟨hu1, hu2⟩ := aroundEdge_used hm ha
  obtain ⟨around', ha', hsorted, hmem⟩ := Props.C23_faces_around_edge hm he hu1 hu2
  rw [ha] at ha'; cases ha'
  cases hmk : mkFaces pts (E.base (sub (pts q) (pts p))).1 (E.base (sub (pts q) (pts p))).2 p q l with
  | exn w => rw [hmk] at hx; cases hx; cases hcs
  | ub w => rw [hmk] at hx; cases hx
  | ok es =>
    rw [hmk] at hx
    cases hx
    cases hcs
    by_cases hnil : l = []
    · subst hnil
      cases hmk
      have hs := hE.sort [] (by simp) (by simp) (by simp)
      have : E.sort [] = [] := List.perm_nil.1 hs.1
      rw [this]
      exact consistent_nil owner T
    · have hapex : ∀ g ∈ l, ∃ r, Apex p q g.2 r := by
        intro g hg
        have hi : g.1 ∈ around := by rw [← hl1]; exact List.mem_map_of_mem hg
        obtain ⟨⟨f, hf, hp⟩, f', hf', hq⟩ := (hmem _).1 hi
        rw [hl2 g hg] at hf hf'
        cases hf; cases hf'
        exact apex_exists he (by simpa [Tri.toList] using hp) (by simpa [Tri.toList] using hq)
      have hall : ∀ (i : Nat) (f : Tri Nat) (r : Nat), fs[i]? = some f → Apex p q f r → (i, f) ∈ l := by
        intro i f r hf hap
        obtain ⟨h1, h2, -⟩ := apex_mem hap
        have hi : i ∈ around := (hmem i).2 ⟨⟨f, hf, by simpa [Tri.toList] using h1⟩, ⟨f, hf, by simpa [Tri.toList] using h2⟩⟩
        rw [← hl1] at hi
        obtain ⟨g, hg, rfl⟩ := List.mem_map.1 hi
        have := hl2 g hg
        rw [hf] at this
        rw [show (g.1, f) = g from by rw [Option.some.inj this]]
        exact hg
      obtain ⟨g, hg⟩ := List.exists_mem_of_ne_nil l hnil
      obtain ⟨r, hr⟩ := hapex g hg
      have hgf := List.mem_of_getElem? (hl2 g hg)
      have hpq : pts p ≠ pts q := (proper_distinct (S.apex_ok hgf hr)).1
      have hb := hE.base _ (Radial.sub_ne hpq)
      obtain ⟨ε, as, A⟩ := S.around ⟨g.2, hgf, r, hr⟩ hb.1 hb.2.1
      have hmK' := hmK ⟨g.1, g.2, r, hl2 g hg, hr⟩
      have hswo := Props.C29_strict_weak_order hpq hb
      have hrel := mkFaces_rel hmk
      have hs := hE.sort es (fun a ha => hswo.1 a (hrel a ha)) (fun a ha b hb c hc => hswo.2.1 a b c (hrel a ha) (hrel b hb) (hrel c hc))
        (fun a ha b hb c hc => hswo.2.2 a b c (hrel a ha) (hrel b hb) (hrel c hc))
      refine Props.C28_edge_consistent hpq hb (fun g hg => S.distinct (List.mem_of_getElem? (hl2 g hg))) ?_ hmk hs (A.regions hmK' hl2 hall) ?_
      · rw [hl1]
        exact hsorted.imp (fun h => Nat.ne_of_lt h)
      · intro g hg
        obtain ⟨r, hr⟩ := hapex g hg
        obtain ⟨h1, h2, -⟩ := apex_mem hr
        exact A.right_tag hmK' hl2 hall hg hr (hT _ _ (hl2 g hg) h1 h2)

/-! ## The side of a face -/

theorem centre_eq (a b c : P3) : Side.centroid a b c = centre ⟨a, b, c⟩ := by
  apply p3_ext <;> simp only [Side.centroid, centre, combo] <;> ring

theorem side_right {K : P3 → Prop} {fs : List (Tri Nat)} {pts : Nat → P3} {owner : Nat → Bool} {χ : Bool → P3 → Prop} (S : Scene K fs pts owner χ) {E : Mix.Env} {orig : Bool → List (Tri P3)} (hE : E.Valid orig)
    {soup : Bool → Soup P3 D} (hc : ∀ b, HasCorners (soup b).points (soup b).faces (orig b)) (hne : ∀ b, (soup b).faces ≠ []) (hok : ∀ b, ∀ t ∈ orig b, Proper t)
    (hwi : ∀ b, StaysIn K (orig b)) (hb : ∀ b, BoundsIn K (orig b) (χ b)) (hsurf : ∀ b x, Surface (orig b) x ↔ ∃ (i : Nat) (f : Tri Nat), fs[i]? = some f ∧ owner i = b ∧ In (tri pts f) x) {i : Nat} {f : Tri Nat} (hf : fs[i]? = some f) {t : Tag}
    (h : Mix.sideTag E (soup true) (soup false) fs pts owner i = some t) : (t = .exterior ∨ t = .interior) ∧ Right fs pts owner χ i f t := by
  unfold Mix.sideTag at h
  rw [hf] at h
  simp only [centre_eq] at h
  have hsel : (if owner i = true then soup false else soup true) = soup (!owner i) := by cases owner i <;> rfl
  rw [hsel] at h
  have hW : Props.WithBoundary (⟨.boundaryDefined, soup (!owner i)⟩ : Region P3 D) (orig (!owner i)) := ⟨rfl, hne _, hc _⟩
  have heq := Props.boundedSide_eq (E := E.side (!owner i)) (r := (⟨.boundaryDefined, soup (!owner i)⟩ : Region P3 D)) rfl (centre (tri pts f))
  have hno : Side.sideOf (E.side (!owner i)) (soup (!owner i)) (centre (tri pts f)) ≠ ok .boundary := by
    intro hs
    have hs' : Side.sideOf (E.side (!owner i)) (soup (!owner i)) (centre ⟨pts f.a, pts f.b, pts f.c⟩) = ok .boundary := hs
    rw [hs'] at h
    cases h
  have hoff : ¬ Surface (orig (!owner i)) (centre (tri pts f)) := by
    intro hs
    have h1 := Props.C11_on_surface hW (hE.side _) hs
    rw [heq] at h1
    cases hs' : Side.sideOf (E.side (!owner i)) (soup (!owner i)) (centre (tri pts f)) with
    | ok s =>
      simp only [hs'] at h1
      cases s
      · cases h1
      · exact hno hs'
      · cases h1
    | exn w => simp only [hs'] at h1; cases h1
    | ub w => simp only [hs'] at h1; cases h1
  have hnm : ∀ (j : Nat) (g : Tri Nat), fs[j]? = some g → owner j ≠ owner i → ¬ Match (tri pts f) (tri pts g) := by
    intro j g hg ho hm
    exact hoff ((hsurf _ _).2 ⟨j, g, hg, bool_ne ho, in_match hm (inner_in (inner_centre _))⟩)
  have hsound := Props.sound_in hW (hE.side _) (hok _) S.zone (hwi _) (hb _) (S.within f (List.mem_of_getElem? hf) _ (inner_centre _)) hoff
  rw [heq] at hsound
  have htri : (⟨pts f.a, pts f.b, pts f.c⟩ : Tri P3) = tri pts f := rfl
  rw [htri] at h
  cases hs : Side.sideOf (E.side (!owner i)) (soup (!owner i)) (centre (tri pts f)) with
  | ok s =>
    rw [hs] at h
    simp only [hs] at hsound
    cases s with
    | boundary => cases h
    | positive =>
      cases h
      have hχ := hsound.2 rfl
      exact ⟨Or.inl rfl, hnm, fun x hx h' => hχ ((S.inner_const hf hnm (inner_centre _) hx).2 h')⟩
    | negative =>
      cases h
      have hχ := hsound.1 rfl
      exact ⟨Or.inr rfl, hnm, fun x hx => (S.inner_const hf hnm (inner_centre _) hx).1 hχ⟩
  | exn w => rw [hs] at h; cases h
  | ub w => rw [hs] at h; cases h

/-! ## All faces -/

theorem retag_get (tags : Nat → Tag) (k : Nat) (data : List (MixedData D)) (i : Nat) : (Mix.retag tags k data)[i]? = data[i]?.map (fun d => { d with tag := tags (k + i) }) := by
  induction data generalizing k i with
  | nil => simp [Mix.retag]
  | cons d ds ih =>
    cases i with
    | zero => simp [Mix.retag]
    | succ i => simp only [Mix.retag, List.getElem?_cons_succ, ih]; rw [show k + 1 + i = k + (i + 1) by omega]

theorem retag_length (tags : Nat → Tag) (k : Nat) (data : List (MixedData D)) : (Mix.retag tags k data).length = data.length := by
  induction data generalizing k with
  | nil => rfl
  | cons d ds ih => simp [Mix.retag, ih]

theorem retag_operand (tags : Nat → Tag) (k : Nat) (ts : List (Tri P3)) (data : List (MixedData D)) (b : Bool) : operandTris ts (Mix.retag tags k data) b = operandTris ts data b := by
  induction data generalizing k ts with
  | nil => rfl
  | cons d ds ih =>
    cases ts with
    | nil => rfl
    | cons t ts =>
      have := ih (k + 1) ts
      simp only [operandTris] at this
      simp only [operandTris, Mix.retag, List.zip_cons_cons, List.filter_cons]
      split
      · simp only [List.map_cons, this]
      · exact this

theorem seams_shares {K : P3 → Prop} {fs : List (Tri Nat)} {pts : Nat → P3} {owner : Nat → Bool} {χ : Bool → P3 → Prop} (S : Scene K fs pts owner χ) {border : List (Nat × Nat)} {i j : Nat} (h : SharesNonBorder fs border i j) :
    ∃ p q f g r r', ¬ IsBorder border p q ∧ fs[i]? = some f ∧ fs[j]? = some g ∧ Apex p q f r ∧ Apex p q g r' := by
  obtain ⟨f, v, w, hf, hs, hb, ⟨g, hg, hv⟩, g', hg', hw⟩ := h
  rw [hg] at hg'; cases hg'
  have hd := S.distinct (List.mem_of_getElem? hf)
  have hvw : v ≠ w := by
    rcases hs with ⟨rfl, rfl⟩ | ⟨rfl, rfl⟩ | ⟨rfl, rfl⟩
    · exact hd.1
    · exact hd.2.1
    · exact hd.2.2.symm
  obtain ⟨r, hr⟩ := apex_exists hvw (f := f) (by rcases hs with ⟨rfl, rfl⟩ | ⟨rfl, rfl⟩ | ⟨rfl, rfl⟩ <;> simp [Tri.toList]) (by rcases hs with ⟨rfl, rfl⟩ | ⟨rfl, rfl⟩ | ⟨rfl, rfl⟩ <;> simp [Tri.toList])
  obtain ⟨r', hr'⟩ := apex_exists hvw (f := g) (by simpa [Tri.toList] using hv) (by simpa [Tri.toList] using hw)
  exact ⟨v, w, f, g, r, r', hb, hf, hg, hr, hr'⟩

theorem not_shares_out {fs : List (Tri Nat)} {border : List (Nat × Nat)} {i j : Nat} (h : SharesNonBorder fs border i j) : (∃ f, fs[i]? = some f) ∧ ∃ g, fs[j]? = some g := by
  obtain ⟨f, v, w, hf, -, -, ⟨g, hg, -⟩, -⟩ := h
  exact ⟨⟨f, hf⟩, g, hg⟩

/-- The edges of the border, and the edges at which faces of both operands meet, are inside of the convex set. -/
def Clear (K : P3 → Prop) (fs : List (Tri Nat)) (pts : Nat → P3) (owner : Nat → Bool) (border : List (Nat × Nat)) : Prop :=
  ∀ p q, (∃ i, HasEdge fs p q i) → ((p, q) ∈ border ∨ ∃ k k', HasEdge fs p q k ∧ HasEdge fs p q k' ∧ owner k ≠ owner k') → K (mid (pts p) (pts q))

theorem clear_whole (fs : List (Tri Nat)) (pts : Nat → P3) (owner : Nat → Bool) (border : List (Nat × Nat)) : Clear Whole fs pts owner border := fun _ _ _ _ => trivial

/-- Every face of a corefinement has a right tag; the tags of its faces are right or unknown, and the input of the local classification agrees with the right tags. -/
theorem truth_in {orig : Bool → List (Tri P3)} {m0 : Soup P3 (MixedData D)} {ts : List (Tri P3)} {border : List (Nat × Nat)} (h : Corefined orig m0 ts border) {K : P3 → Prop} (hK : Zone K)
    (hwi : ∀ b, StaysIn K (orig b)) (hcl : Clear K m0.faces (Mix.pts m0.points) (Mix.owner m0.data) border) {χ : Bool → P3 → Prop} (hb : ∀ b, BoundsIn K (orig b) (χ b)) {E : Mix.Env} (hE : E.Valid orig) :
    ∃ T : Nat → Tag, (∀ i, T i ≠ .unknown) ∧ (∀ i f, m0.faces[i]? = some f → Right m0.faces (Mix.pts m0.points) (Mix.owner m0.data) χ i f (T i)) ∧
      (∀ m edges, Mesh.Finalized m0.faces m → Mix.edgeInputs E m0.faces m (Mix.pts m0.points) border = ok edges → Props.ConsistentInput m0.faces border (Mix.owner m0.data) edges T) ∧
      (∀ i, Mix.tag m0.data i ≠ .unknown → Mix.tag m0.data i = T i ∧ (Mix.tag m0.data i = .coplanar ∨ Mix.tag m0.data i = .opposite)) ∧
      ∀ b x, Surface (orig b) x ↔ ∃ (i : Nat) (f : Tri Nat), m0.faces[i]? = some f ∧ Mix.owner m0.data i = b ∧ In (tri (Mix.pts m0.points) f) x := by
  classical
  have hcut := cut_in h.toCutInto hK hwi hb
  have S := scene_of_cut hcut h.points
  -- the right tags
  have hex : ∀ i, ∃ t, t ≠ Tag.unknown ∧ ∀ f, m0.faces[i]? = some f → Right m0.faces (Mix.pts m0.points) (Mix.owner m0.data) χ i f t := by
    intro i
    cases hf : m0.faces[i]? with
    | none => exact ⟨.exterior, by simp, by simp⟩
    | some f =>
      obtain ⟨t, ht⟩ := S.right_exists hf
      refine ⟨t, fun e => by rw [e] at ht; exact ht, fun f' hf' => ?_⟩
      cases hf'; exact ht
  choose T hT0 hT using hex
  have hown : ∀ i, Mix.owner m0.data i = ownerOf m0.data i := fun _ => rfl
  have hsurf : ∀ b x, Surface (orig b) x ↔ ∃ (i : Nat) (f : Tri Nat), m0.faces[i]? = some f ∧ Mix.owner m0.data i = b ∧ In (tri (Mix.pts m0.points) f) x := by
    intro b x
    obtain ⟨src, hr⟩ := h.refines b
    rw [refines_surface hr]
    constructor
    · rintro ⟨u, hu, hin⟩
      obtain ⟨i, f, hf, ho, rfl⟩ := (operand_mem h.data h.corners).1 hu
      exact ⟨i, f, hf, ho, hin⟩
    · rintro ⟨i, f, hf, ho, hin⟩
      exact ⟨_, (operand_mem h.data h.corners).2 ⟨i, f, hf, ho, rfl⟩, hin⟩
  have hcons : ∀ m edges, Mesh.Finalized m0.faces m → Mix.edgeInputs E m0.faces m (Mix.pts m0.points) border = ok edges → Props.ConsistentInput m0.faces border (Mix.owner m0.data) edges T := by
    intro m edges hm hedges
    refine ⟨?_, ?_, hT0⟩
    · intro x hx cs hcs
      obtain ⟨e, he, hin⟩ := edgeInputs_mem hedges x hx
      exact edge_consistent S hE hm (fun i f hf _ _ => hT i f hf) (h.edges e he) (fun hi => hcl _ _ hi (Or.inl he)) hin hcs
    · intro i j hij
      obtain ⟨p, q, f, g, r, r', hnb, hf, hg, ha, ha'⟩ := seams_shares S hij
      exact S.right_unique hg (S.tag_step h.seams (fun hm => hcl p q ⟨i, f, r, hf, ha⟩ (Or.inr hm)) hnb hf hg ha ha' (hT i f hf)) (hT j g hg)
  have htag : ∀ i, Mix.tag m0.data i = .unknown ∨ (∃ f, m0.faces[i]? = some f ∧ Right m0.faces (Mix.pts m0.points) (Mix.owner m0.data) χ i f (Mix.tag m0.data i)) ∧
      (Mix.tag m0.data i = .coplanar ∨ Mix.tag m0.data i = .opposite) := by
    intro i
    cases hd : m0.data[i]? with
    | none => left; simp [Mix.tag, hd]
    | some d =>
      have hi : i < m0.faces.length := by rw [← h.data]; exact (List.getElem?_eq_some_iff.1 hd).1
      have hf := List.getElem?_eq_getElem hi
      have hmem : (tri (Mix.pts m0.points) m0.faces[i], d) ∈ ts.zip m0.data := by
        rw [List.mem_iff_getElem?]
        exact ⟨i, List.getElem?_zip_eq_some.2 ⟨corner_tri h.corners hf, hd⟩⟩
      have ho : Mix.owner m0.data i = d.fromLeft := by simp [Mix.owner, hd]
      have ht : Mix.tag m0.data i = d.tag := by simp [Mix.tag, hd]
      rw [ht]
      rcases h.tags _ hmem with h1 | ⟨h1, u, hu, hs⟩ | ⟨h1, u, hu, hs⟩
      · exact Or.inl h1
      · obtain ⟨j, g, hg, hoj, rfl⟩ := (operand_mem h.data h.corners).1 hu
        refine Or.inr ⟨⟨_, hf, ?_⟩, Or.inl h1⟩
        simp only at h1; rw [h1]
        exact ⟨j, g, hg, by rw [hoj, ho]; simp, hs⟩
      · obtain ⟨j, g, hg, hoj, rfl⟩ := (operand_mem h.data h.corners).1 hu
        refine Or.inr ⟨⟨_, hf, ?_⟩, Or.inr h1⟩
        simp only at h1; rw [h1]
        exact ⟨j, g, hg, by rw [hoj, ho]; simp, hs⟩
  refine ⟨T, hT0, fun i f hf => hT i f hf, hcons, fun i hi => ?_, hsurf⟩
  rcases htag i with hu | ⟨⟨f, hf, hR⟩, hc⟩
  · exact absurd hu hi
  · exact ⟨S.right_unique hf hR (hT i f hf), hc⟩

theorem corefined_truth {orig : Bool → List (Tri P3)} {m0 : Soup P3 (MixedData D)} {ts : List (Tri P3)} {border : List (Nat × Nat)} (h : Corefined orig m0 ts border) {χ : Bool → P3 → Prop}
    (hb : ∀ b, Spec.Side.Bounds (orig b) (χ b)) {E : Mix.Env} (hE : E.Valid orig) :
    ∃ T : Nat → Tag, (∀ i, T i ≠ .unknown) ∧ (∀ i f, m0.faces[i]? = some f → Right m0.faces (Mix.pts m0.points) (Mix.owner m0.data) χ i f (T i)) ∧
      (∀ m edges, Mesh.Finalized m0.faces m → Mix.edgeInputs E m0.faces m (Mix.pts m0.points) border = ok edges → Props.ConsistentInput m0.faces border (Mix.owner m0.data) edges T) ∧
      (∀ i, Mix.tag m0.data i ≠ .unknown → Mix.tag m0.data i = T i ∧ (Mix.tag m0.data i = .coplanar ∨ Mix.tag m0.data i = .opposite)) ∧
      ∀ b x, Surface (orig b) x ↔ ∃ (i : Nat) (f : Tri Nat), m0.faces[i]? = some f ∧ Mix.owner m0.data i = b ∧ In (tri (Mix.pts m0.points) f) x :=
  truth_in h zone_whole (fun _ => within_whole _) (clear_whole _ _ _ _) (fun b => (hb b).whole) hE

theorem mixed_in {orig : Bool → List (Tri P3)} {m0 out : Soup P3 (MixedData D)} {ts : List (Tri P3)} {border : List (Nat × Nat)} (h : Corefined orig m0 ts border) {K : P3 → Prop} (hK : Zone K)
    (hwi : ∀ b, StaysIn K (orig b)) (hcl : Clear K m0.faces (Mix.pts m0.points) (Mix.owner m0.data) border) {χ : Bool → P3 → Prop}
    (hok : ∀ b, ∀ t ∈ orig b, Proper t) (hb : ∀ b, BoundsIn K (orig b) (χ b)) {E : Mix.Env} (hE : E.Valid orig) {soup : Bool → Soup P3 D}
    (hc : ∀ b, HasCorners (soup b).points (soup b).faces (orig b)) (hne : ∀ b, (soup b).faces ≠ []) {w : Global.Warnings} (hr : Mix.Result E (soup true) (soup false) m0 border out w) :
    Cut K out ts χ ∧ Tagged out ts χ ∧ w = .none := by
  classical
  have hcut := cut_in h.toCutInto hK hwi hb
  have S := scene_of_cut hcut h.points
  obtain ⟨m, edges, tags1, tags2, w1, w2, hm, hedges, hl, hg, rfl, rfl⟩ := hr
  obtain ⟨T, hT0, hT, hcons, htag, hsurf⟩ := truth_in h hK hwi hcl hb hE
  obtain ⟨h1, hw1, hw2⟩ := Props.C27_order_independent hm (fun f hf => S.distinct hf) (hcons m edges hm hedges)
    (fun i hi => (htag i hi).1)
    (fun i => by
      by_cases hu : Mix.tag m0.data i = .unknown
      · exact Or.inl hu
      · exact Or.inr (htag i hu).2)
    (fun i t ht => by
      have hf : ∃ f, m0.faces[i]? = some f := by
        cases hf : m0.faces[i]? with
        | none => unfold Mix.sideTag at ht; rw [hf] at ht; cases ht
        | some f => exact ⟨f, rfl⟩
      obtain ⟨f, hf⟩ := hf
      obtain ⟨h1, h2⟩ := side_right S hE hc hne hok hwi hb hsurf hf ht
      exact ⟨h1, S.right_unique hf h2 (hT i f hf)⟩) hl hg
  refine ⟨⟨?_, h.corners, h.complex, ?_, hK, hcut.within, ?_⟩, ?_, ?_⟩
  · simp only [retag_length]; exact h.data
  · intro b; simp only [retag_operand]; exact h.once b
  · intro b; simp only [retag_operand]; exact hcut.bounds b
  · intro x hx
    simp only [retag_operand] at hx ⊢
    obtain ⟨i, hi⟩ := List.mem_iff_getElem?.1 hx
    rw [List.getElem?_zip_eq_some] at hi
    obtain ⟨f, hf, e⟩ := corner_face h.corners hi.1
    rw [retag_get] at hi
    cases hd : m0.data[i]? with
    | none => rw [hd] at hi; simp at hi
    | some d =>
      rw [hd] at hi
      have e2 : x.2 = { d with tag := tags2 (0 + i) } := by simpa using hi.2.symm
      have ho : Mix.owner m0.data i = d.fromLeft := by simp [Mix.owner, hd]
      rw [e2, e]
      simp only [Nat.zero_add]
      rw [h1 i ((List.getElem?_eq_some_iff.1 hf).1), ← ho]
      exact rightTag_of_right h.data h.corners (hT i f hf)
  · rw [hw1, hw2]; rfl

theorem mixed_right {orig : Bool → List (Tri P3)} {m0 out : Soup P3 (MixedData D)} {ts : List (Tri P3)} {border : List (Nat × Nat)} (h : Corefined orig m0 ts border) {χ : Bool → P3 → Prop}
    (hok : ∀ b, ∀ t ∈ orig b, Proper t) (hb : ∀ b, Spec.Side.Bounds (orig b) (χ b)) {E : Mix.Env} (hE : E.Valid orig) {soup : Bool → Soup P3 D}
    (hc : ∀ b, HasCorners (soup b).points (soup b).faces (orig b)) (hne : ∀ b, (soup b).faces ≠ []) {w : Global.Warnings} (hr : Mix.Result E (soup true) (soup false) m0 border out w) :
    Cut Whole out ts χ ∧ Tagged out ts χ ∧ w = .none :=
  mixed_in h zone_whole (fun _ => within_whole _) (clear_whole _ _ _ _) hok (fun b => (hb b).whole) hE hc hne hr

end Kigumi.Space
