import Verif.Proofs.Radial
import Verif.Proofs.Germ
import Verif.Props.Classify

/-! # C29: the radial order, and what it means for the classification around an edge (C28) -/
namespace Kigumi.Radial
open Kigumi Geo Local Real Outcome

theorem mkFace_ok {pts : Nat → P3} {u v : P3} {p q fi : Nat} {f : Tri Nat} {e : FaceAround} (h : mkFace pts u v p q fi f = ok e) :
    mkEntry p q fi f = ok e.entry ∧ e.dir = ⟨dot (sub (pts e.entry.r) (pts p)) u, dot (sub (pts e.entry.r) (pts p)) v⟩ ∧ radialBin e.dir = ok e.bin := by
  unfold mkFace at h
  rw [bind_eq_ok] at h
  obtain ⟨a, ha, h⟩ := h
  rw [bind_eq_ok] at h
  obtain ⟨b, hb, h⟩ := h
  cases h
  exact ⟨ha, rfl, hb⟩

theorem mkFaces_mem {pts : Nat → P3} {u v : P3} {p q : Nat} {l : List (Nat × Tri Nat)} {es : List FaceAround} (h : mkFaces pts u v p q l = ok es) :
    List.Forall₂ (fun g e => mkFace pts u v p q g.1 g.2 = ok e) l es := by
  induction l generalizing es with
  | nil => cases h; exact .nil
  | cons g l ih =>
    obtain ⟨fi, f⟩ := g
    unfold mkFaces at h
    rw [bind_eq_ok] at h
    obtain ⟨a, ha, h⟩ := h
    rw [bind_eq_ok] at h
    obtain ⟨b, hb, h⟩ := h
    cases h
    exact .cons ha (ih hb)

/-- The entry of a face: its third vertex and orientation. -/
theorem entry_shape {p q fi : Nat} {f : Tri Nat} {e : Entry} (hpq : p ≠ q) (hd : f.a ≠ f.b ∧ f.b ≠ f.c ∧ f.a ≠ f.c) (h : mkEntry p q fi f = ok e) :
    e.fi = fi ∧ ((e.ccw = true ∧ Spec.SameFace ⟨p, q, e.r⟩ f) ∨ (e.ccw = false ∧ Spec.SameFace ⟨q, p, e.r⟩ f)) := by
  obtain ⟨a, b, c⟩ := f
  simp only at hd
  simp only [mkEntry, findCorner] at h
  simp only [Spec.SameFace, Tri.rot, Tri.mk.injEq]
  by_cases h1 : a = p <;> by_cases h2 : b = p <;> by_cases h3 : c = p <;> by_cases h4 : a = q <;> by_cases h5 : b = q <;> by_cases h6 : c = q <;>
    simp [h1, h2, h3, h4, h5, h6, cornerAt, hpq, Ne.symm hpq] at h hd ⊢ <;> first | omega | (subst h; simp <;> omega)

theorem apex_of {p q fi : Nat} {f : Tri Nat} {e : Entry} (hpq : p ≠ q) (hd : f.a ≠ f.b ∧ f.b ≠ f.c ∧ f.a ≠ f.c) (h : mkEntry p q fi f = ok e) : Spec.Apex p q f e.r := by
  rcases (entry_shape hpq hd h).2 with ⟨-, h⟩ | ⟨-, h⟩
  · exact Or.inl h
  · exact Or.inr h

theorem apex_unique {p q r r' : Nat} {f : Tri Nat} (hpq : p ≠ q) (hd : f.a ≠ f.b ∧ f.b ≠ f.c ∧ f.a ≠ f.c) (h : Spec.Apex p q f r) (h' : Spec.Apex p q f r') : r = r' := by
  obtain ⟨a, b, c⟩ := f
  simp only at hd
  simp only [Spec.Apex, Spec.SameFace, Tri.rot, Tri.mk.injEq] at h h'
  omega

/-- Angles are unique. -/
theorem angle_unique {p q u r : P3} {α β : ℝ} (hpq : p ≠ q) (hu : dot u (sub q p) = 0) (hu0 : u ≠ ⟨0, 0, 0⟩) (h : Spec.AngleAround p q u r α) (h' : Spec.AngleAround p q u r β) :
    α = β := by
  have k1 := len_pos hu0
  have k2 := len_pos (cross_ne hu (sub_ne hpq) hu0)
  have h1 := angle_planar hpq hu hu0 h
  have h2 := angle_planar hpq hu hu0 h'
  obtain ⟨b, hb, -⟩ := bin_range k1 k2 h1
  have o1 := planar_order k1 k2 h1 h2 hb hb
  have o2 := planar_order k1 k2 h2 h1 hb hb
  rw [o1] at o2
  rcases lt_trichotomy α β with h | h | h
  · have := o2.1 h; linarith
  · exact h
  · have := o2.2 h; linarith

theorem bin_ok {p q u r : P3} {b : Nat} (hu : dot u (sub q p) = 0) (h : radialBin ⟨dot (sub r p) u, dot (sub r p) (cross (sub q p) u)⟩ = ok b) : ¬ Spec.OnLine p q r := by
  intro hl
  rw [on_line_throws hu hl] at h
  cases h

end Kigumi.Radial

namespace Kigumi.Props
open Kigumi Geo Local Radial Real Outcome

/-- **The radial order is the order by angle.** For two faces around an edge `pq` and for any base vectors as constructed from the plane orthogonal to the edge, the comparison of the code says "less"
iff the half plane of the first face has the smaller angle, measured counterclockwise from the first base vector in `[0, 2π)`. -/
theorem C29_order_by_angle {pts : Nat → P3} {u v : P3} {p q fi gi : Nat} {f g : Tri Nat} {e e' : FaceAround} {α β : ℝ} (hpq : pts p ≠ pts q) (hb : IsBase (sub (pts q) (pts p)) u v)
    (hf : mkFace pts u v p q fi f = ok e) (hg : mkFace pts u v p q gi g = ok e') (ha : Spec.AngleAround (pts p) (pts q) u (pts e.entry.r) α)
    (ha' : Spec.AngleAround (pts p) (pts q) u (pts e'.entry.r) β) : radialLt e e' = true ↔ α < β := by
  obtain ⟨hu, hu0, rfl⟩ := hb
  obtain ⟨-, d1, b1⟩ := mkFace_ok hf
  obtain ⟨-, d2, b2⟩ := mkFace_ok hg
  unfold radialLt
  by_cases hr : e.entry.r = e'.entry.r
  · rw [if_pos hr]
    rw [hr] at ha
    have := angle_unique hpq hu hu0 ha ha'
    simp [this]
  · rw [if_neg hr]
    have h1 := angle_planar hpq hu hu0 ha
    have h2 := angle_planar hpq hu hu0 ha'
    rw [← d1] at h1
    rw [← d2] at h2
    exact planar_order (len_pos hu0) (len_pos (cross_ne hu (sub_ne hpq) hu0)) h1 h2 b1 b2

/-- Constructing the record of a face throws exactly when its third vertex is on the line through the edge; otherwise the angle of the face exists and is unique. -/
theorem C29_degenerate_throws {pts : Nat → P3} {u v : P3} {p q fi : Nat} {f : Tri Nat} {e : Entry} (hpq : pts p ≠ pts q) (hb : IsBase (sub (pts q) (pts p)) u v)
    (hf : mkEntry p q fi f = ok e) :
    (Spec.OnLine (pts p) (pts q) (pts e.r) → mkFace pts u v p q fi f = exn "degenerate face") ∧
    (¬ Spec.OnLine (pts p) (pts q) (pts e.r) → (∃ a, mkFace pts u v p q fi f = ok a ∧ a.entry = e) ∧ ∃ θ, Spec.AngleAround (pts p) (pts q) u (pts e.r) θ ∧
      ∀ θ', Spec.AngleAround (pts p) (pts q) u (pts e.r) θ' → θ' = θ) := by
  obtain ⟨hu, hu0, rfl⟩ := hb
  constructor
  · intro h
    unfold mkFace
    rw [hf]
    simp only [ok_bind]
    rw [on_line_throws hu h]
    rfl
  · intro h
    obtain ⟨θ, hθ⟩ := angle_exists hpq hu hu0 h
    refine ⟨?_, θ, hθ, fun θ' h' => angle_unique hpq hu hu0 h' hθ⟩
    obtain ⟨b, hb, -⟩ := bin_range (len_pos hu0) (len_pos (cross_ne hu (sub_ne hpq) hu0)) (angle_planar hpq hu hu0 hθ)
    unfold mkFace
    rw [hf]
    simp only [ok_bind]
    rw [hb]
    exact ⟨_, rfl, rfl⟩

/-- **The comparison is a strict weak order** on the records of faces around an edge: irreflexive, transitive, and being incomparable is transitive. -/
theorem C29_strict_weak_order {pts : Nat → P3} {u v : P3} {p q : Nat} (hpq : pts p ≠ pts q) (hb : IsBase (sub (pts q) (pts p)) u v) :
    let R : FaceAround → Prop := fun e => ∃ fi f, mkFace pts u v p q fi f = ok e
    (∀ a, R a → radialLt a a = false) ∧
    (∀ a b c, R a → R b → R c → radialLt a b = true → radialLt b c = true → radialLt a c = true) ∧
    (∀ a b c, R a → R b → R c → radialLt a b = false → radialLt b a = false → radialLt b c = false → radialLt c b = false → radialLt a c = false ∧ radialLt c a = false) := by
  intro R
  have ang : ∀ e, R e → ∃ θ, Spec.AngleAround (pts p) (pts q) u (pts e.entry.r) θ := by
    rintro e ⟨fi, f, h⟩
    obtain ⟨h1, h2, h3⟩ := mkFace_ok h
    rw [h2, hb.2.2] at h3
    exact angle_exists hpq hb.1 hb.2.1 (bin_ok hb.1 h3)
  have key : ∀ a b, R a → R b → ∀ α β, Spec.AngleAround (pts p) (pts q) u (pts a.entry.r) α → Spec.AngleAround (pts p) (pts q) u (pts b.entry.r) β →
      (radialLt a b = true ↔ α < β) := by
    rintro a b ⟨fi, f, h⟩ ⟨gi, g, h'⟩ α β hα hβ
    exact C29_order_by_angle hpq hb h h' hα hβ
  refine ⟨?_, ?_, ?_⟩
  · intro a _; simp [radialLt]
  · intro a b c ha hb' hc h1 h2
    obtain ⟨α, hα⟩ := ang a ha
    obtain ⟨β, hβ⟩ := ang b hb'
    obtain ⟨γ, hγ⟩ := ang c hc
    rw [key a b ha hb' α β hα hβ] at h1
    rw [key b c hb' hc β γ hβ hγ] at h2
    rw [key a c ha hc α γ hα hγ]
    linarith
  · intro a b c ha hb' hc h1 h2 h3 h4
    obtain ⟨α, hα⟩ := ang a ha
    obtain ⟨β, hβ⟩ := ang b hb'
    obtain ⟨γ, hγ⟩ := ang c hc
    rw [← Bool.not_eq_true, key a b ha hb' α β hα hβ, not_lt] at h1
    rw [← Bool.not_eq_true, key b a hb' ha β α hβ hα, not_lt] at h2
    rw [← Bool.not_eq_true, key b c hb' hc β γ hβ hγ, not_lt] at h3
    rw [← Bool.not_eq_true, key c b hc hb' γ β hγ hβ, not_lt] at h4
    rw [← Bool.not_eq_true, ← Bool.not_eq_true, key a c ha hc α γ hα hγ, key c a hc ha γ α hγ hα, not_lt, not_lt]
    exact ⟨by linarith, by linarith⟩

/-- After sorting, the angles of the faces do not decrease. -/
theorem C29_sorted {pts : Nat → P3} {u v : P3} {p q : Nat} (hpq : pts p ≠ pts q) (hb : IsBase (sub (pts q) (pts p)) u v) {l : List (Nat × Tri Nat)} {es s : List FaceAround}
    (hes : mkFaces pts u v p q l = ok es) (hs : IsSortOf radialLt es s) {ang : Nat → ℝ}
    (ha : ∀ i e, s[i]? = some e → Spec.AngleAround (pts p) (pts q) u (pts e.entry.r) (ang i)) : ∀ i j, i ≤ j → j < s.length → ang i ≤ ang j := by
  intro i j hij hj
  rcases Nat.lt_or_ge i j with hlt | hge
  · have hi : i < s.length := by omega
    have hp := List.pairwise_iff_getElem.1 hs.2 i j hi hj hlt
    have mem : ∀ e ∈ s, ∃ fi f, mkFace pts u v p q fi f = ok e := by
      intro e he
      have := hs.1.mem_iff.1 he
      have hf := mkFaces_mem hes
      obtain ⟨k, hk, rfl⟩ := List.getElem_of_mem this
      have hlen := hf.length_eq
      have := List.Forall₂.get hf (by rw [hlen]; exact hk) hk
      exact ⟨_, _, this⟩
    obtain ⟨fi, f, h1⟩ := mem _ (List.getElem_mem hi)
    obtain ⟨gi, g, h2⟩ := mem _ (List.getElem_mem hj)
    have h3 := C29_order_by_angle hpq hb h2 h1 (ha j _ (List.getElem?_eq_getElem hj)) (ha i _ (List.getElem?_eq_getElem hi))
    rw [hp] at h3
    simp only [Bool.false_eq_true, false_iff, not_lt] at h3
    exact h3
  · have : i = j := by omega
    rw [this]

end Kigumi.Props

namespace Kigumi.Radial
open Kigumi Geo Local Real Outcome

/-- What one learns about the entries of a sorted list. -/
theorem sorted_entries {pts : Nat → P3} {u v : P3} {p q : Nat} {l : List (Nat × Tri Nat)} {es s : List FaceAround} (hv : p ≠ q) (hl : ∀ g ∈ l, g.2.a ≠ g.2.b ∧ g.2.b ≠ g.2.c ∧ g.2.a ≠ g.2.c)
    (hes : mkFaces pts u v p q l = ok es) (hs : IsSortOf radialLt es s) :
    (∀ g ∈ l, ∃ i, i < s.length ∧ (nth (s.map (·.entry)) i).fi = g.1) ∧
    (∀ i, i < s.length → ∃ e, s[i]? = some e ∧ nth (s.map (·.entry)) i = e.entry ∧ ∃ g ∈ l, mkFace pts u v p q g.1 g.2 = ok e ∧ e.entry.fi = g.1) ∧
    ((l.map (·.1)).Nodup → ∀ i j, i < s.length → j < s.length → (nth (s.map (·.entry)) i).fi = (nth (s.map (·.entry)) j).fi → i = j) := by
  have hf := mkFaces_mem hes
  have hlen := hf.length_eq
  have hfi : es.map (fun e => e.entry.fi) = l.map (·.1) := by
    clear hs hlen hes
    induction hf with
    | nil => rfl
    | @cons g e l es h _ ih =>
      simp only [List.map_cons]
      rw [ih (fun g hg => hl g (by simp [hg])), (entry_shape hv (hl g (by simp)) (mkFace_ok h).1).1]
  have hperm : (s.map (fun e => e.entry.fi)).Perm (l.map (·.1)) := by rw [← hfi]; exact hs.1.map _
  have hnth : ∀ i (hi : i < s.length), nth (s.map (·.entry)) i = (s[i]).entry := by
    intro i hi
    unfold nth
    rw [List.getD_eq_getElem?_getD, List.getElem?_map, List.getElem?_eq_getElem hi]
    rfl
  refine ⟨?_, ?_, ?_⟩
  · intro g hg
    have : g.1 ∈ s.map (fun e => e.entry.fi) := hperm.mem_iff.2 (List.mem_map.2 ⟨g, hg, rfl⟩)
    obtain ⟨e, he, hee⟩ := List.mem_map.1 this
    obtain ⟨i, hi, rfl⟩ := List.getElem_of_mem he
    exact ⟨i, hi, by rw [hnth i hi]; exact hee⟩
  · intro i hi
    refine ⟨s[i], List.getElem?_eq_getElem hi, hnth i hi, ?_⟩
    have := hs.1.mem_iff.1 (List.getElem_mem hi)
    obtain ⟨k, hk, hke⟩ := List.getElem_of_mem this
    have hk' : k < l.length := by rw [hlen]; exact hk
    have h1 := List.Forall₂.get hf hk' hk
    simp only [List.get_eq_getElem] at h1
    rw [hke] at h1
    exact ⟨l[k], List.getElem_mem hk', h1, (entry_shape hv (hl _ (List.getElem_mem hk')) (mkFace_ok h1).1).1⟩
  · intro hn i j hi hj he
    rw [hnth i hi, hnth j hj] at he
    have hnd := hperm.nodup_iff.2 hn
    have hi' : i < (s.map (fun e => e.entry.fi)).length := by simpa using hi
    have hj' : j < (s.map (fun e => e.entry.fi)).length := by simpa using hj
    exact (List.Nodup.getElem_inj_iff hnd (hi := hi') (hj := hj')).1 (by simpa using he)

theorem SameFace.symm {f g : Tri Nat} (h : Spec.SameFace f g) : Spec.SameFace g f := by
  rcases h with rfl | rfl | rfl
  · exact Or.inl rfl
  · exact Or.inr (Or.inr rfl)
  · exact Or.inr (Or.inl rfl)

theorem SameFace.trans {f g h : Tri Nat} (h1 : Spec.SameFace f g) (h2 : Spec.SameFace g h) : Spec.SameFace f h := by
  rcases h1 with rfl | rfl | rfl
  · exact h2
  · rcases h2 with rfl | rfl | rfl
    · exact Or.inr (Or.inl rfl)
    · exact Or.inr (Or.inr rfl)
    · exact Or.inl rfl
  · rcases h2 with rfl | rfl | rfl
    · exact Or.inr (Or.inr rfl)
    · exact Or.inl rfl
    · exact Or.inr (Or.inl rfl)

theorem SameFace.flip {f g : Tri Nat} (h : Spec.SameFace f g) : Spec.SameFace f.flip g.flip := by
  rcases h with rfl | rfl | rfl
  · exact Or.inl rfl
  · exact Or.inr (Or.inr rfl)
  · exact Or.inr (Or.inl rfl)

theorem same_congr {f f' g g' : Tri Nat} (h1 : Spec.SameFace f f') (h2 : Spec.SameFace g g') : Spec.SameFace f' g' ↔ Spec.SameFace f g :=
  ⟨fun h => SameFace.trans h1 (SameFace.trans h (SameFace.symm h2)), fun h => SameFace.trans (SameFace.symm h1) (SameFace.trans h h2)⟩

/-- Same or opposite corners, in terms of apex and orientation. -/
theorem same_iff {p q fi gi : Nat} {f g : Tri Nat} {e e' : Entry} (hpq : p ≠ q) (hf : f.a ≠ f.b ∧ f.b ≠ f.c ∧ f.a ≠ f.c) (hg : g.a ≠ g.b ∧ g.b ≠ g.c ∧ g.a ≠ g.c)
    (he : mkEntry p q fi f = ok e) (he' : mkEntry p q gi g = ok e') :
    (Spec.SameFace f g ↔ e.r = e'.r ∧ e.ccw = e'.ccw) ∧ (Spec.SameFace f.flip g ↔ e.r = e'.r ∧ e.ccw ≠ e'.ccw) := by
  obtain ⟨-, h1⟩ := entry_shape hpq hf he
  obtain ⟨-, h2⟩ := entry_shape hpq hg he'
  have d : e.r ≠ p ∧ e.r ≠ q ∧ e'.r ≠ p ∧ e'.r ≠ q := by
    obtain ⟨a, b, c⟩ := f
    obtain ⟨a', b', c'⟩ := g
    simp only at hf hg
    simp only [Spec.SameFace, Tri.rot, Tri.mk.injEq] at h1 h2
    have h1' : (p = a ∨ p = b ∨ p = c) ∧ (q = a ∨ q = b ∨ q = c) ∧ (e.r ≠ p ∧ e.r ≠ q) := by
      rcases h1 with ⟨-, h⟩ | ⟨-, h⟩ <;> omega
    have h2' : (e'.r ≠ p ∧ e'.r ≠ q) := by
      rcases h2 with ⟨-, h⟩ | ⟨-, h⟩ <;> omega
    exact ⟨h1'.2.2.1, h1'.2.2.2, h2'⟩
  clear he he' hf hg
  obtain ⟨d1, d2, d3, d4⟩ := d
  rcases h1 with ⟨c1, h1⟩ | ⟨c1, h1⟩ <;> rcases h2 with ⟨c2, h2⟩ | ⟨c2, h2⟩ <;> rw [same_congr h1 h2, same_congr (SameFace.flip h1) h2] <;>
    simp only [c1, c2, Spec.SameFace, Tri.rot, Tri.flip, Tri.mk.injEq] <;> constructor <;> simp <;> omega

end Kigumi.Radial

namespace Kigumi.Props
open Kigumi Geo Local Radial Real Outcome

/-- **Around an edge of two regions, the sorted entries are consistent.** If the faces around an edge bound two regions of space (`RegionsAround`) and `T` gives every one of these faces its right tag, then
the entries that the code makes from coordinates and sorts satisfy the consistency condition of the classification theorems C27 and C28. -/
theorem C28_edge_consistent {pts : Nat → P3} {u v : P3} {p q : Nat} {l : List (Nat × Tri Nat)} {es s : List FaceAround} {owner : Nat → Bool} {In : Bool → ℝ → Bool} {T : Nat → Tag}
    (hpq : pts p ≠ pts q) (hb : IsBase (sub (pts q) (pts p)) u v) (hl : ∀ g ∈ l, g.2.a ≠ g.2.b ∧ g.2.b ≠ g.2.c ∧ g.2.a ≠ g.2.c) (hnd : (l.map (·.1)).Nodup)
    (hes : mkFaces pts u v p q l = ok es) (hs : IsSortOf radialLt es s)
    (hR : Spec.RegionsAround pts p q u l owner In) (hT : ∀ g ∈ l, Spec.RightTagAround pts p q u l owner In g (T g.1)) :
    ∃ inside, Consistent owner T (s.map (·.entry)) inside := by
  have hv : p ≠ q := fun h => hpq (by rw [h])
  obtain ⟨all, ent, inj⟩ := sorted_entries hv hl hes hs
  have inj := inj hnd
  generalize hcs : s.map (·.entry) = cs at *
  have hlen : cs.length = s.length := by rw [← hcs]; simp
  -- the face of every entry
  have face : ∀ i, i < s.length → ∃ g ∈ l, (nth cs i).fi = g.1 ∧ mkEntry p q g.1 g.2 = ok (nth cs i) ∧ ¬ Spec.OnLine (pts p) (pts q) (pts (nth cs i).r) := by
    intro i hi
    obtain ⟨e, -, h2, g, hg, h3, h4⟩ := ent i hi
    obtain ⟨h5, h6, h7⟩ := mkFace_ok h3
    rw [h6, hb.2.2] at h7
    rw [h2]
    exact ⟨g, hg, h4, h5, bin_ok hb.1 h7⟩
  have hang : ∀ i, ∃ θ, i < s.length → Spec.AngleAround (pts p) (pts q) u (pts (nth cs i).r) θ := by
    intro i
    by_cases hi : i < s.length
    · obtain ⟨g, -, -, -, h⟩ := face i hi
      obtain ⟨θ, h⟩ := angle_exists hpq hb.1 hb.2.1 h
      exact ⟨θ, fun _ => h⟩
    · exact ⟨0, fun h => absurd h hi⟩
  obtain ⟨ang, hang⟩ := Classical.skolem.1 hang
  have sorted : ∀ i j, i ≤ j → j < s.length → ang i ≤ ang j := by
    apply C29_sorted hpq hb hes hs
    intro i e he
    have hi : i < s.length := by
      by_contra hn
      rw [List.getElem?_eq_none (by omega)] at he; cases he
    obtain ⟨e', h1, h2, -⟩ := ent i hi
    rw [he] at h1; cases h1
    have := hang i hi
    rwa [h2] at this
  have idx : ∀ g ∈ l, ∃ i, i < s.length ∧ (nth cs i).fi = g.1 ∧ mkEntry p q g.1 g.2 = ok (nth cs i) := by
    intro g hg
    obtain ⟨i, hi, he⟩ := all g hg
    obtain ⟨g', hg', h1, h2, -⟩ := face i hi
    have : g' = g := by
      have := List.inj_on_of_nodup_map hnd hg' hg (by rw [← h1, he])
      exact this
    subst this
    exact ⟨i, hi, h1, h2⟩
  have germ : Germ.Germ cs.length ang (fun i => owner (nth cs i).fi) (fun i => (nth cs i).ccw) In := by
    rw [hlen]
    refine ⟨?_, sorted, hR.periodic, ?_, ?_, ?_⟩
    · intro i hi
      have := hang i hi
      exact ⟨this.1, this.2.1⟩
    · intro x α β hαβ hno
      apply hR.const x α β hαβ
      intro g hg ho r θ hr hθ k
      obtain ⟨i, hi, h1, h2⟩ := idx g hg
      have hr' := apex_unique hv (hl g hg) hr (apex_of hv (hl g hg) h2)
      subst hr'
      have := angle_unique hpq hb.1 hb.2.1 hθ (hang i hi)
      subst this
      exact hno i hi (by rw [h1]; exact ho) k
    · intro i hi
      obtain ⟨g, hg, h1, h2, -⟩ := face i hi
      obtain ⟨ε, pe, hε⟩ := hR.cross g hg _ _ (apex_of hv (hl g hg) h2) (hang i hi)
      obtain ⟨c, hc, hd⟩ := dirDot_sin hpq hb.1 hb.2.1 (hang i hi)
      have hp := pi_pos
      have sgn : ∀ φ, Spec.dirDot (pts p) (pts q) u φ (Spec.normal (pts g.2.a) (pts g.2.b) (pts g.2.c)) = (if (nth cs i).ccw then 1 else -1) * (c * sin (φ - ang i)) := by
        intro φ
        rcases (entry_shape hv (hl g hg) h2).2 with ⟨hcc, hsf⟩ | ⟨hcc, hsf⟩
        · rw [normal_same hsf]; simp only [hcc, if_true, one_mul]; exact hd φ
        · rw [normal_same hsf]; simp only [hcc]
          rw [normal_swap, dirDot_neg, hd φ]; simp
      refine ⟨min ε (π / 2), lt_min pe (by linarith), ?_⟩
      intro δ d0 d1
      have d2 : δ < ε := lt_of_lt_of_le d1 (min_le_left _ _)
      have d3 : δ < π / 2 := lt_of_lt_of_le d1 (min_le_right _ _)
      have hsin : 0 < sin δ := sin_pos_of_pos_of_lt_pi d0 (by linarith)
      have hcs' : 0 < c * sin δ := mul_pos hc hsin
      have a1 := hε (ang i - δ) (by rw [show ang i - δ - ang i = -δ by ring, abs_neg, abs_of_pos d0]; exact d2)
      have a2 := hε (ang i + δ) (by rw [show ang i + δ - ang i = δ by ring, abs_of_pos d0]; exact d2)
      rw [sgn, show ang i - δ - ang i = -δ by ring, sin_neg] at a1
      rw [sgn, show ang i + δ - ang i = δ by ring] at a2
      rw [h1]
      cases hcc : (nth cs i).ccw
      · simp only [hcc, Bool.false_eq_true, if_false] at a1 a2
        exact ⟨a1.1 (by nlinarith), a2.2 (by nlinarith)⟩
      · simp only [hcc, if_true] at a1 a2
        exact ⟨a1.2 (by nlinarith), a2.1 (by nlinarith)⟩
    · intro i j hi hj ho ha
      by_contra hij
      obtain ⟨g, hg, g1, g2, -⟩ := face i hi
      obtain ⟨h, hh, h1, h2, -⟩ := face j hj
      have hne : g.1 ≠ h.1 := by
        intro he
        exact hij (inj i j hi hj (by rw [g1, h1, he]))
      have hj' := hang j hj
      rw [← ha] at hj'
      have := (hR.meet g hg h hh hne _ _ _ (apex_of hv (hl g hg) g2) (apex_of hv (hl h hh) h2) (hang i hi) hj').1
      simp only [g1, h1] at ho
      exact this ho
  obtain ⟨inside, hreg, hin⟩ := Germ.regions germ
  -- coincident faces
  have coin : ∀ i j, i < s.length → j < s.length → i ≠ j → (nth cs i).r = (nth cs j).r → owner (nth cs i).fi ≠ owner (nth cs j).fi ∧ ang i = ang j := by
    intro i j hi hj hij hr
    obtain ⟨g, hg, g1, g2, -⟩ := face i hi
    obtain ⟨h, hh, h1, h2, -⟩ := face j hj
    have hne : g.1 ≠ h.1 := by
      intro he
      exact hij (inj i j hi hj (by rw [g1, h1, he]))
    have hj' := hang j hj
    rw [← hr] at hj'
    have ha := angle_unique hpq hb.1 hb.2.1 (hang i hi) hj'
    refine ⟨?_, ha⟩
    have hj'' := hang j hj
    rw [← ha] at hj''
    rw [g1, h1]
    exact (hR.meet g hg h hh hne _ _ _ (apex_of hv (hl g hg) g2) (apex_of hv (hl h hh) h2) (hang i hi) hj'').1
  -- faces in the same direction have the same apex
  have meet : ∀ i j, i < s.length → j < s.length → i ≠ j → ang i = ang j → owner (nth cs i).fi ≠ owner (nth cs j).fi ∧ (nth cs i).r = (nth cs j).r := by
    intro i j hi hj hij ha
    obtain ⟨g, hg, g1, g2, -⟩ := face i hi
    obtain ⟨h, hh, h1, h2, -⟩ := face j hj
    have hne : g.1 ≠ h.1 := by
      intro he
      exact hij (inj i j hi hj (by rw [g1, h1, he]))
    have hj'' := hang j hj
    rw [← ha] at hj''
    rw [g1, h1]
    exact hR.meet g hg h hh hne _ _ _ (apex_of hv (hl g hg) g2) (apex_of hv (hl h hh) h2) (hang i hi) hj''
  have adj : ∀ i j, i < j → j < s.length → ang i = ang j → j = i + 1 := by
    intro i j hij hj ha
    by_contra hn
    have hk : i + 1 < s.length := by omega
    have e1 := sorted i (i + 1) (by omega) hk
    have e2 := sorted (i + 1) j (by omega) hj
    have e3 : ang i = ang (i + 1) := by linarith
    have e4 : ang (i + 1) = ang j := by linarith
    have o1 := (meet i (i + 1) (by omega) hk (by omega) e3).1
    have o2 := (meet (i + 1) j hk hj (by omega) e4).1
    have o3 := (meet i j (by omega) hj (by omega) ha).1
    revert o1 o2 o3
    cases owner (nth cs i).fi <;> cases owner (nth cs (i + 1)).fi <;> cases owner (nth cs j).fi <;> simp
  refine ⟨inside, hreg, ?_, ?_⟩
  · rw [hlen]
    intro i j hi hj hij hr
    obtain ⟨ho, ha⟩ := coin i j hi hj hij hr
    refine ⟨ho, ?_⟩
    rcases Nat.lt_or_ge i j with hlt | hge
    · left; have := adj i j hlt hj ha
      rw [this, Nat.mod_eq_of_lt (by omega)]
    · right; have := adj j i (by omega) hi ha.symm
      rw [this, Nat.mod_eq_of_lt (by omega)]
  · rw [hlen]
    intro i hi
    obtain ⟨g, hg, g1, g2, -⟩ := face i hi
    have ht := hT g hg
    rw [← g1] at ht
    unfold rightTag
    rw [hlen]
    have samefaces : (∀ h ∈ l, h.1 ≠ g.1 → ¬ Spec.SameFace g.2 h.2 ∧ ¬ Spec.SameFace g.2.flip h.2) → ∀ j, j < s.length → j ≠ i → (nth cs j).r ≠ (nth cs i).r := by
      intro hno j hj hji hr
      obtain ⟨h, hh, h1, h2, -⟩ := face j hj
      obtain ⟨n1, n2⟩ := hno h hh (by rw [← g1, ← h1]; intro he; exact hji (inj j i hj hi he))
      obtain ⟨s1, s2⟩ := same_iff hv (hl g hg) (hl h hh) g2 h2
      rw [s1] at n1
      rw [s2] at n2
      by_cases hc : (nth cs i).ccw = (nth cs j).ccw
      · exact n1 ⟨hr.symm, hc⟩
      · exact n2 ⟨hr.symm, hc⟩
    have inn : (∀ j, j < s.length → j ≠ i → (nth cs j).r ≠ (nth cs i).r) → ∀ b r θ, Spec.Apex p q g.2 r → Spec.AngleAround (pts p) (pts q) u (pts r) θ →
        In (!owner g.1) θ = b → inside (!owner (nth cs i).fi) i = b := by
      intro hno b r θ hr hθ hI
      have hr' := apex_unique hv (hl g hg) hr (apex_of hv (hl g hg) g2)
      subst hr'
      have := angle_unique hpq hb.1 hb.2.1 hθ (hang i hi)
      subst this
      rw [hin i (by rw [hlen]; exact hi)]
      · simp only [g1]; exact hI
      · intro j hj ho ha
        rw [hlen] at hj
        have hji : j ≠ i := by rintro rfl; exact ho rfl
        exact hno j hj hji (meet j i hj hi hji ha).2
    revert ht
    generalize T (nth cs i).fi = t
    cases t with
    | unknown => exact id
    | coplanar =>
      rintro ⟨h, hh, hne, hs'⟩
      obtain ⟨j, hj, h1, h2⟩ := idx h hh
      obtain ⟨s1, s2⟩ := same_iff hv (hl g hg) (hl h hh) g2 h2
      obtain ⟨r1, c1⟩ := s1.1 hs'
      exact ⟨j, hj, by rintro rfl; exact hne (by rw [← h1, ← g1]), r1.symm, c1.symm⟩
    | opposite =>
      rintro ⟨h, hh, hne, hs'⟩
      obtain ⟨j, hj, h1, h2⟩ := idx h hh
      obtain ⟨s1, s2⟩ := same_iff hv (hl g hg) (hl h hh) g2 h2
      obtain ⟨r1, c1⟩ := s2.1 hs'
      exact ⟨j, hj, by rintro rfl; exact hne (by rw [← h1, ← g1]), r1.symm, Ne.symm c1⟩
    | interior =>
      rintro ⟨hno, r, θ, hr, hθ, hI⟩
      exact ⟨samefaces hno, inn (samefaces hno) _ r θ hr hθ hI⟩
    | exterior =>
      rintro ⟨hno, r, θ, hr, hθ, hI⟩
      exact ⟨samefaces hno, inn (samefaces hno) _ r θ hr hθ hI⟩

/-- One edge of the input of local classification, with coordinates: `around` are the numbers of the faces `l` around the edge `pq`, `sorted` the entries made from them
and sorted by some sorting algorithm; the faces bound two regions and `T` gives their right tags. -/
def GeometricEdge (pts : Nat → P3) (owner : Nat → Bool) (T : Nat → Tag) (around : List Nat) (sorted : Option (List Entry)) : Prop :=
  ∃ (u v : P3) (p q : Nat) (l : List (Nat × Tri Nat)) (es s : List FaceAround) (In : Bool → ℝ → Bool),
    pts p ≠ pts q ∧ IsBase (sub (pts q) (pts p)) u v ∧ (∀ g ∈ l, g.2.a ≠ g.2.b ∧ g.2.b ≠ g.2.c ∧ g.2.a ≠ g.2.c) ∧ (l.map (·.1)).Nodup ∧ around = l.map (·.1) ∧
    mkFaces pts u v p q l = ok es ∧ IsSortOf radialLt es s ∧ sorted = some (s.map (·.entry)) ∧
    Spec.RegionsAround pts p q u l owner In ∧ ∀ g ∈ l, Spec.RightTagAround pts p q u l owner In g (T g.1)

/-- **Local classification of faces in space tells the truth.** If around every edge the faces bound two regions of space and `T` gives the right tags (and is the same for faces that
are connected without crossing an intersection edge), then at every moment of every execution every face is unclassified or has its right tag. -/
theorem C28_geometric {fs : List (Tri Nat)} {m : Mesh.Mesh} (hm : Mesh.Finalized fs m) {border : List (Nat × Nat)} {owner : Nat → Bool} {pts : Nat → P3}
    {edges : List (List Nat × Option (List Entry))} {T : Nat → Tag} (hedge : ∀ e ∈ edges, GeometricEdge pts owner T e.1 e.2)
    (hconst : ∀ f g, Spec.SharesNonBorder fs border f g → T f = T g) (hknown : ∀ f, T f ≠ .unknown) {tags0 : Nat → Tag}
    (h0 : ∀ f, tags0 f ≠ .unknown → tags0 f = T f) {c : TagProg.Cfg} (hex : TagProg.Exec (start (meshEnv fs m border owner) edges tags0) c) :
    (∀ f, c.tags f = .unknown ∨ c.tags f = T f) ∧ ∀ i, c.prog i ≠ .diverge := by
  apply C28_right_tags hm ⟨?_, hconst, hknown⟩ h0 hex
  intro e he cs hcs
  obtain ⟨u, v, p, q, l, es, s, In, h1, h2, h3, h4, -, h6, h7, h8, h9, h10⟩ := hedge e he
  rw [hcs] at h8
  cases h8
  exact C28_edge_consistent h1 h2 h3 h4 h6 h7 h9 h10

/-! ## Example: two half spaces

The edge is the segment from the origin to (0,0,1). The region of operand `true` is `x > 0`, that of operand `false` is `y > 0`. -/
namespace HalfSpaces

def pts : Nat → P3 := fun i => ([⟨0, 0, 0⟩, ⟨0, 0, 1⟩, ⟨1, 0, 0⟩, ⟨0, 1, 0⟩, ⟨-1, 0, 0⟩, ⟨0, -1, 0⟩] : List P3).getD i ⟨0, 0, 0⟩
def faces : List (Nat × Tri Nat) := [(0, ⟨0, 1, 3⟩), (1, ⟨1, 0, 5⟩), (2, ⟨1, 0, 2⟩), (3, ⟨0, 1, 4⟩)]
def owner : Nat → Bool := fun i => decide (i < 2)
def T : Nat → Tag := fun i => if i = 0 then .interior else if i = 2 then .interior else .exterior
noncomputable def In : Bool → ℝ → Bool := fun x φ => if x then decide (0 < cos φ) else decide (0 < sin φ)
def u : P3 := ⟨1, 0, 0⟩
def v : P3 := ⟨0, 1, 0⟩

theorem base : IsBase (sub (pts 1) (pts 0)) u v := by unfold IsBase; decide +kernel

theorem angles : Spec.AngleAround (pts 0) (pts 1) u (pts 2) 0 ∧ Spec.AngleAround (pts 0) (pts 1) u (pts 3) (π / 2) ∧ Spec.AngleAround (pts 0) (pts 1) u (pts 4) π ∧
    Spec.AngleAround (pts 0) (pts 1) u (pts 5) (3 * π / 2) := by
  have hp := pi_pos
  have c3 : cos (3 * π / 2) = 0 := by rw [show 3 * π / 2 = π / 2 + π by ring, cos_add_pi]; simp
  have s3 : sin (3 * π / 2) = -1 := by rw [show 3 * π / 2 = π / 2 + π by ring, sin_add_pi]; simp
  refine ⟨⟨by linarith, by linarith, 0, 1, one_pos, ?_, ?_, ?_⟩, ⟨by linarith, by linarith, 0, 1, one_pos, ?_, ?_, ?_⟩, ⟨by linarith, by linarith, 0, 1, one_pos, ?_, ?_, ?_⟩,
    ⟨by linarith, by linarith, 0, 1, one_pos, ?_, ?_, ?_⟩⟩ <;> norm_num [pts, u, c3, s3]

theorem apex_pts {g : Nat × Tri Nat} {r : Nat} (hg : g ∈ faces) (hr : Spec.Apex 0 1 g.2 r) :
    (g = (0, ⟨0, 1, 3⟩) ∧ r = 3) ∨ (g = (1, ⟨1, 0, 5⟩) ∧ r = 5) ∨ (g = (2, ⟨1, 0, 2⟩) ∧ r = 2) ∨ (g = (3, ⟨0, 1, 4⟩) ∧ r = 4) := by
  simp only [faces, List.mem_cons, List.not_mem_nil, or_false] at hg
  rcases hg with rfl | rfl | rfl | rfl <;> simp [Spec.Apex, Spec.SameFace, Tri.rot] at hr ⊢ <;> omega

theorem the_angle {r : Nat} {α β : ℝ} (h : Spec.AngleAround (pts 0) (pts 1) u (pts r) α) (h' : Spec.AngleAround (pts 0) (pts 1) u (pts r) β) : α = β :=
  angle_unique (by decide +kernel) base.1 base.2.1 h h'

theorem zero_between {f : ℝ → ℝ} (hf : Continuous f) {α β : ℝ} (h : α ≤ β) (hne : decide (0 < f α) ≠ decide (0 < f β)) : ∃ z, α ≤ z ∧ z ≤ β ∧ f z = 0 := by
  by_cases h1 : 0 < f α
  · have h2 : f β ≤ 0 := by by_contra hc; exact hne (by simp [h1, not_le.1 hc])
    obtain ⟨z, hz, hz'⟩ := intermediate_value_Icc' h hf.continuousOn ⟨h2, h1.le⟩
    exact ⟨z, hz.1, hz.2, hz'⟩
  · have h2 : 0 < f β := by by_contra hc; exact hne (by simp [h1, hc])
    obtain ⟨z, hz, hz'⟩ := intermediate_value_Icc h hf.continuousOn ⟨not_lt.1 h1, h2.le⟩
    exact ⟨z, hz.1, hz.2, hz'⟩

theorem regions : Spec.RegionsAround pts 0 1 u faces owner In where
  periodic := by intro x φ; cases x <;> simp [In]
  const := by
    intro x α β hαβ hno
    by_contra hne
    obtain ⟨a2, a3, a4, a5⟩ := angles
    cases x
    · obtain ⟨z, z1, z2, hz⟩ := zero_between continuous_sin hαβ (by simpa [In] using hne)
      obtain ⟨n, hn⟩ := sin_eq_zero_iff.1 hz
      rcases Int.even_or_odd' n with ⟨k, hk | hk⟩
      · apply hno (2, ⟨1, 0, 2⟩) (by simp [faces]) (by decide) 2 0 (by right; left; rfl) a2 k
        subst hk; push_cast at hn
        constructor <;> linarith
      · apply hno (3, ⟨0, 1, 4⟩) (by simp [faces]) (by decide) 4 π (by left; left; rfl) a4 k
        subst hk; push_cast at hn
        constructor <;> linarith
    · obtain ⟨z, z1, z2, hz⟩ := zero_between continuous_cos hαβ (by simpa [In] using hne)
      obtain ⟨n, hn⟩ := sin_eq_zero_iff.1 (show sin (z - π / 2) = 0 by rw [sin_sub_pi_div_two, hz, neg_zero])
      rcases Int.even_or_odd' n with ⟨k, hk | hk⟩
      · apply hno (0, ⟨0, 1, 3⟩) (by simp [faces]) (by decide) 3 (π / 2) (by left; left; rfl) a3 k
        subst hk; push_cast at hn
        constructor <;> linarith
      · apply hno (1, ⟨1, 0, 5⟩) (by simp [faces]) (by decide) 5 (3 * π / 2) (by right; left; rfl) a5 k
        subst hk; push_cast at hn
        constructor <;> linarith
  cross := by
    intro g hg r θ hr hθ
    obtain ⟨a2, a3, a4, a5⟩ := angles
    refine ⟨1, one_pos, ?_⟩
    intro φ _
    rcases apex_pts hg hr with ⟨rfl, rfl⟩ | ⟨rfl, rfl⟩ | ⟨rfl, rfl⟩ | ⟨rfl, rfl⟩ <;>
      norm_num [Spec.dirDot, Spec.normal, pts, u, In, owner] <;> (intro h; linarith)
  meet := by
    intro g hg h hh hne r r' θ hr hr' hθ hθ'
    exfalso
    obtain ⟨a2, a3, a4, a5⟩ := angles
    have hp := pi_pos
    rcases apex_pts hg hr with ⟨rfl, rfl⟩ | ⟨rfl, rfl⟩ | ⟨rfl, rfl⟩ | ⟨rfl, rfl⟩ <;> rcases apex_pts hh hr' with ⟨rfl, rfl⟩ | ⟨rfl, rfl⟩ | ⟨rfl, rfl⟩ | ⟨rfl, rfl⟩ <;>
      simp only [ne_eq, not_true] at hne <;>
      first
        | (have e1 := the_angle hθ a2; have e2 := the_angle hθ' a3; linarith)
        | (have e1 := the_angle hθ a2; have e2 := the_angle hθ' a4; linarith)
        | (have e1 := the_angle hθ a2; have e2 := the_angle hθ' a5; linarith)
        | (have e1 := the_angle hθ a3; have e2 := the_angle hθ' a2; linarith)
        | (have e1 := the_angle hθ a3; have e2 := the_angle hθ' a4; linarith)
        | (have e1 := the_angle hθ a3; have e2 := the_angle hθ' a5; linarith)
        | (have e1 := the_angle hθ a4; have e2 := the_angle hθ' a2; linarith)
        | (have e1 := the_angle hθ a4; have e2 := the_angle hθ' a3; linarith)
        | (have e1 := the_angle hθ a4; have e2 := the_angle hθ' a5; linarith)
        | (have e1 := the_angle hθ a5; have e2 := the_angle hθ' a2; linarith)
        | (have e1 := the_angle hθ a5; have e2 := the_angle hθ' a3; linarith)
        | (have e1 := the_angle hθ a5; have e2 := the_angle hθ' a4; linarith)

theorem right_tags : ∀ g ∈ faces, Spec.RightTagAround pts 0 1 u faces owner In g (T g.1) := by
  obtain ⟨a2, a3, a4, a5⟩ := angles
  intro g hg
  have others : ∀ h ∈ faces, h.1 ≠ g.1 → ¬ Spec.SameFace g.2 h.2 ∧ ¬ Spec.SameFace g.2.flip h.2 := by
    revert g; simp only [faces, Spec.SameFace]; decide
  have s3 : sin (3 * π / 2) = -1 := by rw [show 3 * π / 2 = π / 2 + π by ring, sin_add_pi]; simp
  simp only [faces, List.mem_cons, List.not_mem_nil, or_false] at hg
  rcases hg with rfl | rfl | rfl | rfl
  · exact ⟨others, 3, π / 2, by left; left; rfl, a3, by simp [In, owner]⟩
  · exact ⟨others, 5, 3 * π / 2, by right; left; rfl, a5, by simp [In, owner, s3]⟩
  · exact ⟨others, 2, 0, by right; left; rfl, a2, by simp [In, owner]⟩
  · exact ⟨others, 4, π, by left; left; rfl, a4, by simp [In, owner]⟩

def unsorted : List FaceAround := [⟨⟨0, 3, true⟩, ⟨0, 1⟩, 2⟩, ⟨⟨1, 5, false⟩, ⟨0, -1⟩, 6⟩, ⟨⟨2, 2, false⟩, ⟨1, 0⟩, 0⟩, ⟨⟨3, 4, true⟩, ⟨-1, 0⟩, 4⟩]
def sorted : List FaceAround := [⟨⟨2, 2, false⟩, ⟨1, 0⟩, 0⟩, ⟨⟨0, 3, true⟩, ⟨0, 1⟩, 2⟩, ⟨⟨3, 4, true⟩, ⟨-1, 0⟩, 4⟩, ⟨⟨1, 5, false⟩, ⟨0, -1⟩, 6⟩]

theorem made : mkFaces pts u v 0 1 faces = ok unsorted := by decide +kernel
theorem isSort : IsSortOf radialLt unsorted sorted := by
  refine ⟨by decide +kernel, by decide +kernel⟩

/-- The hypotheses of `C28_geometric` hold for the four faces around this edge. -/
example : GeometricEdge pts owner T [0, 1, 2, 3] (some [⟨2, 2, false⟩, ⟨0, 3, true⟩, ⟨3, 4, true⟩, ⟨1, 5, false⟩]) :=
  ⟨u, v, 0, 1, faces, unsorted, sorted, In, by decide +kernel, base, by decide +kernel, by decide, rfl, made, isSort, rfl, regions, right_tags⟩

/-- The order of angles for two of them. -/
example : ∃ e e' : FaceAround, mkFace pts u v 0 1 2 ⟨1, 0, 2⟩ = ok e ∧ mkFace pts u v 0 1 1 ⟨1, 0, 5⟩ = ok e' ∧ radialLt e e' = true ∧ radialLt e' e = false := by
  refine ⟨⟨⟨2, 2, false⟩, ⟨1, 0⟩, 0⟩, ⟨⟨1, 5, false⟩, ⟨0, -1⟩, 6⟩, ?_⟩
  decide +kernel

end HalfSpaces

end Kigumi.Props
