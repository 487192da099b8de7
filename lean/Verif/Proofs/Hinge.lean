import Verif.Proofs.Beams
import Verif.Proofs.Constructed
import Verif.Proofs.Global

/-! # Solids hinged to each other at edges, and operands all of whose faces coincide with faces of the other one -/
namespace Kigumi.Space
open Kigumi Outcome Geo Spec.Triangles Spec.Side FaceFace
open Kigumi.Side (Aff plane Ok ok_of_proper near_refl shift_near)

/-- The function is not negative on one triangle and not positive on the other one, and zero only in corners of the first that are corners of the second. -/
def Parts (f : Aff) (t u : Tri P3) : Prop := (∀ v ∈ t.toList, 0 ≤ f.eval v ∧ (f.eval v = 0 → v ∈ u.toList)) ∧ ∀ v ∈ u.toList, f.eval v ≤ 0
instance (f : Aff) (t u : Tri P3) : Decidable (Parts f t u) := inferInstanceAs (Decidable (_ ∧ _))

theorem parts_meet {f : Aff} {t u : Tri P3} (h : Parts f t u) {x : P3} (hx : In t x) (hy : In u x) : InCommon t u x := by
  obtain ⟨h1, h2⟩ := h
  simp only [Tri.toList, List.mem_cons, List.not_mem_nil, or_false, forall_eq_or_imp, forall_eq] at h1 h2
  obtain ⟨⟨a0, a1⟩, ⟨b0, b1⟩, c0, c1⟩ := h1
  obtain ⟨d0, d1, d2⟩ := h2
  obtain ⟨w0, w1, w2, hs, rfl, k0, k1, k2⟩ := hx
  obtain ⟨v0, v1, v2, hs', e, l0, l1, l2⟩ := hy
  have e' := congrArg f.eval e
  rw [eval_combo _ hs, eval_combo _ hs'] at e'
  have p0 := mul_nonneg k0 a0; have p1 := mul_nonneg k1 b0; have p2 := mul_nonneg k2 c0
  have q0 := mul_nonpos_of_nonneg_of_nonpos l0 d0; have q1 := mul_nonpos_of_nonneg_of_nonpos l1 d1; have q2 := mul_nonpos_of_nonneg_of_nonpos l2 d2
  have z0 : w0 * f.eval t.a = 0 := by linarith
  have z1 : w1 * f.eval t.b = 0 := by linarith
  have z2 : w2 * f.eval t.c = 0 := by linarith
  refine ⟨w0, w1, w2, hs, rfl, k0, k1, k2, fun hw => ?_, fun hw => ?_, fun hw => ?_⟩
  · simpa [Tri.toList] using a1 ((mul_eq_zero.1 z0).resolve_left hw)
  · simpa [Tri.toList] using b1 ((mul_eq_zero.1 z1).resolve_left hw)
  · simpa [Tri.toList] using c1 ((mul_eq_zero.1 z2).resolve_left hw)

theorem complex_parts {ts us : List (Tri P3)} (ht : Complex ts) (hu : Complex us) {fs : List Aff} (h : ∀ t ∈ ts, ∀ u ∈ us, (∃ f ∈ fs, Parts f t u) ∧ ∃ f ∈ fs, Parts f u t) : Complex (ts ++ us) where
  proper t h := by
    rcases List.mem_append.1 h with h | h
    · exact ht.proper t h
    · exact hu.proper t h
  meet t h1 u h2 x hx hy := by
    rcases List.mem_append.1 h1 with h1 | h1 <;> rcases List.mem_append.1 h2 with h2 | h2
    · exact ht.meet t h1 u h2 x hx hy
    · obtain ⟨⟨f, -, hf⟩, -⟩ := h t h1 u h2
      exact parts_meet hf hx hy
    · obtain ⟨-, f, -, hf⟩ := h u h2 t h1
      exact parts_meet hf hx hy
    · exact hu.meet t h1 u h2 x hx hy

/-- Two solids, each of which is outside the other; they may touch. -/
theorem bounds_touch {ts us : List (Tri P3)} (hpt : ∀ t ∈ ts, Proper t) (hpu : ∀ t ∈ us, Proper t) {χ ψ : P3 → Prop} (ht : Spec.Side.Bounds ts χ) (hu : Spec.Side.Bounds us ψ)
    (h1 : ∀ x, Surface ts x → ¬ ψ x) (h2 : ∀ x, Surface us x → ¬ χ x) : Spec.Side.Bounds (ts ++ us) (fun x => χ x ∨ ψ x) where
  const x y h := by
    rw [ht.const x y fun z hz hs => h z hz (surface_append.2 (Or.inl hs)), hu.const x y fun z hz hs => h z hz (surface_append.2 (Or.inr hs))]
  jump i t x hi hs := by
    have near : ∀ (us : List (Tri P3)) (ψ : P3 → Prop), (∀ t ∈ us, Proper t) → Spec.Side.Bounds us ψ → ∀ x, ¬ Surface us x → ¬ ψ x → ∃ e > 0, ∀ s, -e ≤ s → s ≤ e → ¬ ψ (shift x s (outward t)) := by
      intro us ψ hp hu x hx hψ
      obtain ⟨e, he, h⟩ := ball (fun t ht => ok_of_proper (hp t ht)) hx
      obtain ⟨d, hd, -, hsh⟩ := shift_near he (outward t)
      refine ⟨d, hd, fun s h1 h2 hc => hψ ?_⟩
      refine (hu.const x _ fun z hz => ?_).2 hc
      exact h _ _ (near_refl he.le x) (hsh s h1 h2 x) z hz
    obtain ⟨t', hi', hin, hall⟩ := hs
    rw [hi] at hi'; cases hi'
    by_cases hlt : i < ts.length
    · have hit : ts[i]? = some t := by rwa [List.getElem?_append_left hlt] at hi
      have hS : Surface ts x := ⟨t, List.mem_of_getElem? hit, hin⟩
      have hN : ¬ Surface us x := by
        rintro ⟨u, hu, hx⟩
        obtain ⟨j, hj⟩ := List.getElem?_of_mem hu
        have := hall (j + ts.length) u (by rw [List.getElem?_append_right (by omega)]; simpa using hj) hx
        omega
      obtain ⟨e, he, h⟩ := ht.jump i t x hit ⟨t, hit, hin, fun j u hj hju => hall j u (by
        rw [List.getElem?_append_left (List.getElem?_eq_some_iff.1 hj).1]; exact hj) hju⟩
      obtain ⟨d, hd', h'⟩ := near us ψ hpu hu x hN (h1 x hS)
      refine ⟨min e d, lt_min he hd', fun s a1 a2 => ?_⟩
      have b1 := a2.trans (min_le_left _ _); have b2 := a2.trans (min_le_right _ _)
      obtain ⟨c1, c2⟩ := h s a1 b1
      exact ⟨Or.inl c1, by rintro (c | c); exacts [c2 c, h' s (by linarith) b2 c]⟩
    · rw [List.getElem?_append_right (by omega)] at hi
      have hS : Surface us x := ⟨t, List.mem_of_getElem? hi, hin⟩
      have hN : ¬ Surface ts x := by
        rintro ⟨u, hu, hx⟩
        obtain ⟨j, hj⟩ := List.getElem?_of_mem hu
        have hjl := (List.getElem?_eq_some_iff.1 hj).1
        have := hall j u (by rw [List.getElem?_append_left hjl]; exact hj) hx
        omega
      obtain ⟨e, he, h⟩ := hu.jump _ t x hi ⟨t, hi, hin, fun j u hj hju => by
        have := hall (j + ts.length) u (by rw [List.getElem?_append_right (by omega)]; simpa using hj) hju
        omega⟩
      obtain ⟨d, hd', h'⟩ := near ts χ hpt ht x hN (h2 x hS)
      refine ⟨min e d, lt_min he hd', fun s a1 a2 => ?_⟩
      have b1 := a2.trans (min_le_left _ _); have b2 := a2.trans (min_le_right _ _)
      obtain ⟨c1, c2⟩ := h s a1 b1
      exact ⟨Or.inr c1, by rintro (c | c); exacts [h' s (by linarith) b2 c, c2 c]⟩

end Kigumi.Space

namespace Kigumi.Global
open Kigumi.Spec
open Kigumi.Flood (set_same set_other)

/-- Once a representative has been dealt with, the faces that can be reached from it by going through faces that are not before it, tagged or not, are no longer looked at. -/
theorem components_apart {nbr : Nat → List Nat} {tags : Nat → Tag} {n : Nat} (hn : ∀ f, ∀ g ∈ nbr f, g < n) : ∀ (is : List Nat) (vis : Nat → Bool), (∀ i ∈ is, i < n) → is.Pairwise (· < ·) →
    (∀ x, vis x = true → (∀ i ∈ is, x < i) ∨ ∀ g ∈ nbr x, vis g = true) → ∀ reps, components nbr tags n is vis = some reps →
    (∀ r ∈ reps, r ∈ is ∧ vis r = false) ∧ ∀ r ∈ reps, ∀ r' ∈ reps, r < r' → ∃ Q : Nat → Prop, Q r ∧ ¬ Q r' ∧ ∀ f, r ≤ f → Q f → ∀ g ∈ nbr f, Q g
  | [], vis, _, _, _, reps, h => by
    simp only [components, Option.some.injEq] at h
    subst h; simp
  | i :: is, vis, hi, hso, hJ, reps, h => by
    have hlt : ∀ j ∈ is, i < j := fun j hj => List.rel_of_pairwise_cons hso hj
    by_cases hv : vis i = true
    · simp only [components, hv, if_true] at h
      obtain ⟨h1, h2⟩ := components_apart hn is vis (fun x hx => hi x (by simp [hx])) hso.of_cons (fun x hx => (hJ x hx).imp (fun h j hj => h j (by simp [hj])) id) reps h
      exact ⟨fun r hr => ⟨by simp [(h1 r hr).1], (h1 r hr).2⟩, h2⟩
    have hv' : vis i = false := by simpa using hv
    have hset : ∀ x, Flood.set vis i true x = true ↔ x = i ∨ vis x = true := by
      intro x
      by_cases hx : x = i
      · subst hx; simp [set_same]
      · simp [set_other _ _ hx, hx]
    by_cases hu : tags i = .unknown
    · obtain ⟨vis', b1, b2, b3, -⟩ := bfs_spec hn n (Flood.set vis i true) [i] (by simp [set_same]) (by
        have := unv_set (hi i (by simp)) hv'
        have := unv_le n vis
        simp; omega)
      have hvi : vis' i = true := b2 i (by simp [set_same])
      have hmono : ∀ x, vis x = true → vis' x = true := fun x hx => b2 x ((hset x).2 (Or.inr hx))
      have hJ' : ∀ x, vis' x = true → (∀ j ∈ i :: is, x < j) ∨ ∀ g ∈ nbr x, vis' g = true := by
        intro x hx
        by_cases hxi : x = i
        · exact .inr fun g hg => b3 x (Or.inl (by simp [hxi])) g hg
        · by_cases hvx : vis x = true
          · exact (hJ x hvx).imp id fun h g hg => hmono g (h g hg)
          · exact .inr fun g hg => b3 x (Or.inr ⟨hx, by rw [set_other _ _ hxi]; simpa using hvx⟩) g hg
      simp only [components, hv', hu, b1, if_true, Bool.false_eq_true, if_false, Option.map_eq_some_iff] at h
      obtain ⟨reps', h, rfl⟩ := h
      obtain ⟨h1, h2⟩ := components_apart hn is vis' (fun x hx => hi x (by simp [hx])) hso.of_cons (fun x hx => (hJ' x hx).imp (fun h j hj => h j (by simp [hj])) id) reps' h
      refine ⟨?_, ?_⟩
      · intro r hr
        rcases List.mem_cons.1 hr with rfl | hr
        · exact ⟨by simp, hv'⟩
        · refine ⟨by simp [(h1 r hr).1], ?_⟩
          by_contra hc
          have := hmono r (by simpa using hc)
          rw [(h1 r hr).2] at this; cases this
      · intro r hr r' hr' hrr
        rcases List.mem_cons.1 hr with rfl | k <;> rcases List.mem_cons.1 hr' with rfl | k'
        · omega
        · refine ⟨fun x => vis' x = true, hvi, by simp [(h1 r' k').2], fun f hf hvf g hg => ?_⟩
          rcases hJ' f hvf with h | h
          · have := h r (by simp); omega
          · exact h g hg
        · have := hlt r (h1 r k).1; omega
        · exact h2 r k r' k' hrr
    · simp only [components, hv', hu, Bool.false_eq_true, if_false] at h
      obtain ⟨h1, h2⟩ := components_apart hn is (Flood.set vis i true) (fun x hx => hi x (by simp [hx])) hso.of_cons (by
        intro x hx
        rcases (hset x).1 hx with rfl | hx
        · exact .inl hlt
        · exact (hJ x hx).imp (fun h j hj => h j (by simp [hj])) fun h g hg => (hset g).2 (.inr (h g hg))) reps h
      refine ⟨fun r hr => ⟨by simp [(h1 r hr).1], ?_⟩, h2⟩
      by_contra hc
      have := (hset r).2 (.inr (by simpa using hc))
      rw [(h1 r hr).2] at this; cases this

theorem representatives_apart {nbr : Nat → List Nat} {tags : Nat → Tag} {n : Nat} (hn : ∀ f, ∀ g ∈ nbr f, g < n) {reps : List Nat} (h : representatives nbr tags n = some reps) {r r' : Nat} (hr : r ∈ reps) (hr' : r' ∈ reps) (hlt : r < r') :
    ∃ Q : Nat → Prop, Q r ∧ ¬ Q r' ∧ ∀ f, r ≤ f → Q f → ∀ g ∈ nbr f, Q g :=
  (components_apart hn (List.range n) (fun _ => false) (by simp) (List.pairwise_lt_range) (by simp) reps h).2 r hr r' hr' hlt

end Kigumi.Global

namespace Kigumi.Corefine
open Kigumi Outcome Geo Spec.Triangles Spec.Side
open Kigumi.Spec (SameTri HasCorners)
variable {D : Type} {E : Env} {op : Bool → List (Tri P3)} {s : Bool → Soup P3 D}

/-- The tag of a triangle that does not coincide with one of the other operand with the other orientation. -/
def plainTag (op : Bool → List (Tri P3)) (b : Bool) (t : Tri P3) : Tag := if ∃ u ∈ op (!b), SameTri t u then .coplanar else .unknown

/-- If all faces of the first operand coincide with faces of the second one, and all in the same direction, nothing is cut. -/
theorem gives_coincident (h : Operands op s) (hE : E.Valid op) (hall : ∀ t ∈ op true, ∃ u ∈ op false, SameTri t u) (hno : ∀ b, ∀ t ∈ op b, ∀ u ∈ op (!b), ¬ SameTri t.flip u) {m : Soup P3 (MixedData D)} {border : List (Nat × Nat)}
    (hm : Gives E (s true) (s false) m border) : border = [] ∧ ∃ finite fs ds new, mixedFaces finite (s true).faces (s false).faces (fun _ => none) (fun _ => none) (idsOf s true) (idsOf s false) ((op true).map (plainTag op true))
      ((op false).map (plainTag op false)) (s true).data (s false).data = ok (fs, ds) ∧ m = ⟨base s ++ new, fs, ds⟩ := by
  obtain ⟨st, finite, fs, ds, edges, hcon, -, hmix, hedges, hborder, rfl⟩ := hm
  obtain ⟨st', e, hst⟩ := construct_ok h hE hcon
  cases e
  have hinf : st.infos = [] := by
    rw [List.eq_nil_iff_forall_not_mem]
    intro x hx
    obtain ⟨t, u, l, r, hp⟩ := hst.points.records x hx
    obtain ⟨v, hv, hs⟩ := hall t (List.mem_of_getElem? hp.left)
    exact hp.apartL ⟨v, hv, .inl hs⟩
  rw [hinf] at hedges
  cases (show ok [] = ok edges from hedges)
  refine ⟨hborder.eq_nil, ?_⟩
  have hl : st.leftMap = fun _ => none := funext fun fi => hst.left.none fi (by simp [hinf])
  have hr : st.rightMap = fun _ => none := funext fun fi => hst.right.none fi (by simp [hinf])
  have ht : ∀ b, both st.leftTags st.rightTags b = (op b).map (plainTag op b) := by
    intro b
    have hlen := hst.tags.length b
    apply List.ext_getElem?
    intro i
    rw [List.getElem?_map]
    cases hi : (op b)[i]? with
    | none =>
      rw [List.getElem?_eq_none_iff] at hi
      rw [List.getElem?_eq_none (by omega)]; rfl
    | some t =>
      obtain ⟨tag, htag, hun, hcase⟩ := hst.tags.tagged b i t hi
      have hmem := List.mem_of_getElem? hi
      rw [htag, Option.map_some]
      congr 1
      unfold plainTag
      rcases hcase with rfl | ⟨rfl, hs⟩ | ⟨-, u, hu, hs⟩
      · rw [if_neg]
        rintro ⟨u, hu, hs⟩
        exact hun.1 rfl ⟨u, hu, .inl hs⟩
      · rw [if_pos hs]
      · exact absurd hs (hno b t hmem u hu)
  obtain ⟨new, hnew⟩ := hst.points.more
  have ht1 : st.leftTags = _ := ht true
  have ht2 : st.rightTags = _ := ht false
  rw [hl, hr, hst.leftIds, hst.rightIds, ht1, ht2] at hmix
  exact ⟨finite, fs, ds, new, hmix, by rw [hnew]⟩

end Kigumi.Corefine
