import Verif.Proofs.TextPlyExact
import Verif.Props.PlyFile
import Verif.Props.TextIO
import Verif.Props.OffRead

/-!
# C102: which PLY files are read, and as what

`Spec/PlyRead` gives the rules.
-/
namespace Kigumi.Props
open Kigumi Kigumi.Text IS Ply Mesh

variable {F D : Type}

theorem wrapped_tok {w : List Char} {n : Nat} (h : IsNatOrWrapped w n) : Tok w := by
  have dig : ∀ ds : List Char, ds ≠ [] → (∀ c ∈ ds, isDigit c = true) → Tok ds := fun ds h1 h2 => ⟨h1, fun c hc => isDigit_not_space (h2 c hc)⟩
  have cons : ∀ (c : Char) (ds : List Char), isSpace c = false → Tok ds → Tok (c :: ds) := fun c ds h1 h2 => ⟨by simp, fun x hx => by
    rcases List.mem_cons.1 hx with rfl | hx
    · exact h1
    · exact h2.2 x hx⟩
  have nat : ∀ {w : List Char} {n : Nat}, IsNat w n → Tok w := by
    rintro w n ⟨-, ds, rfl | rfl, h1, h2, -⟩
    · exact dig _ h1 h2
    · exact cons _ _ rfl (dig ds h1 h2)
  rcases h with h | ⟨ds, m, rfl, h, -⟩
  · exact nat h
  · exact cons _ _ rfl (nat h)

/-- What the rules say, in terms of the definitions of the model. -/
theorem ply_data {N : Doubles F} {t : List Char} {ps : List (P3 F)} {fs : List (List Nat)} (h : TakenAsPly N t ps fs) :
    ∃ E parts q v f vl fl, plyHeader (lines (of t)) .signature [] = some (E, parts.flatten) ∧ plyPlan E = some q ∧ q.ve ≠ q.fe ∧ List.Forall₂ (fun (e : Elem) part => part.length = e.count) E parts ∧
      E[q.ve]? = some v ∧ E[q.fe]? = some f ∧ parts[q.ve]? = some vl ∧ parts[q.fe]? = some fl ∧ List.Forall₂ (PlyVertexLine N q v) vl ps ∧ List.Forall₂ (PlyFaceLine q f) fl fs := by
  obtain ⟨hdr, els, parts, i, j, v, f, vl, fl, hl, hh, hc, hn, hvl, hfl, hps, hfs⟩ := h
  have hvalid : ∀ e ∈ els, ∀ p ∈ e.props, p.Valid := by
    obtain ⟨_, _, _, _, _, _, _, hv, _⟩ := hh
    exact hv
  obtain ⟨x, hx⟩ := hn.x
  obtain ⟨y, hy⟩ := hn.y
  obtain ⟨z, hz⟩ := hn.z
  obtain ⟨vi, hvi⟩ := hn.vertices
  have hplan : plyPlan (els.map toElem) = some ⟨i, x, y, z, j, vi⟩ := (plyPlan_iff hvalid _).2 ⟨v, f, hn, hx, hy, hz, hvi⟩
  have hij : i ≠ j := by
    rintro rfl
    obtain ⟨⟨a, a1, a2⟩, -⟩ := hn.vertex
    obtain ⟨⟨b, b1, b2⟩, -⟩ := hn.face
    rw [a1] at b1
    cases b1
    exact absurd (a2.symm.trans b2) (by decide)
  refine ⟨els.map toElem, parts, ⟨i, x, y, z, j, vi⟩, toElem v, toElem f, vl, fl, ?_, hplan, hij, ?_, ?_, ?_, hvl, hfl, ?_, ?_⟩
  · rw [lines_of hl]
    exact plyHeader_of (fun w n (hw : IsNatOrWrapped w n) => (countOf_iff (wrapped_tok hw) n).2 hw) hh
  · rw [List.forall₂_map_left_iff]
    exact hc
  · rw [List.getElem?_map, hn.atVertex]; rfl
  · rw [List.getElem?_map, hn.atFace]; rfl
  · exact forall₂_iff (fun l p => (vertexLine_iff (q := ⟨i, x, y, z, j, vi⟩) (hvalid v (List.mem_of_getElem? hn.atVertex)) hx hy hz l p).symm) hps
  · exact forall₂_iff (fun l p => (faceLine_iff N (q := ⟨i, x, y, z, j, vi⟩) (hvalid f (List.mem_of_getElem? hn.atFace)) hvi l p).symm) hfs

/-- A text that keeps to the rules is read with its points and its polygons, cut into triangles. -/
theorem C102_taken {N : Doubles F} (dflt : D) {t : List Char} {ps : List (P3 F)} {fs : List (List Nat)} (h : TakenAsPly N t ps fs) (target : Soup (P3 F) D) :
    ∃ k, readPly N dflt (of t) target = (true, ⟨ps, fs.flatMap fan, List.replicate (fs.flatMap fan).length dflt⟩, k) := by
  obtain ⟨E, parts, q, v, f, vl, fl, h1, h2, h3, h4, h5, h6, h7, h8, h9, h10⟩ := ply_data h
  obtain ⟨b, hb, hloop⟩ := plyLoop_parts N dflt q h3 h4 0 (ps := ps) (fs := fs)
    (by
      intro k e part hk he hp
      obtain rfl : k = q.ve := by simpa using hk
      rw [h7] at hp
      cases hp
      rw [h5] at he
      cases he
      exact h9)
    (by
      intro k e part hk he hp
      obtain rfl : k = q.fe := by simpa using hk
      rw [h8] at hp
      cases hp
      rw [h6] at he
      cases he
      exact h10)
    (by simpa using (List.getElem?_eq_some_iff.1 h5).1) (by simpa using (List.getElem?_eq_some_iff.1 h6).1) ⟨Soup.empty, 0⟩
  refine ⟨b.stored, ?_⟩
  unfold readPly
  rw [if_neg (by simp [of]), h1]
  dsimp only
  rw [h2]
  dsimp only
  rw [hloop]
  dsimp only
  rw [if_neg (by simp), if_neg (by simp), hb]
  simp [Soup.empty]

/-- **Exactly the texts that keep to the rules are read**; if a text does not keep to them, the reader returns false and the target is kept. -/
theorem C102_ply (N : Doubles F) (dflt : D) (t : List Char) (target : Soup (P3 F) D) :
    (∃ ps fs k, TakenAsPly N t ps fs ∧ readPly N dflt (of t) target = (true, ⟨ps, fs.flatMap fan, List.replicate (fs.flatMap fan).length dflt⟩, k)) ∨
    (¬ ∃ ps fs, TakenAsPly N t ps fs) ∧ ∃ k, readPly N dflt (of t) target = (false, target, k) := by
  rcases hr : readPly N dflt (of t) target with ⟨o, r, k⟩
  cases o with
  | true =>
    left
    obtain ⟨E, body, parts, q, v, f, vl, fl, ps, polys, h1, rfl, h3, h4, h5, -, h7, h8, -, h10, h11, h12, -⟩ := C50_ply N dflt t target r k hr
    obtain ⟨hdr, els, hl, hh, rfl⟩ := plyHeader_inv h1
    have hvalid : ∀ e ∈ els, ∀ p ∈ e.props, p.Valid := by
      obtain ⟨_, _, _, _, _, _, _, hv, _⟩ := hh
      exact hv
    obtain ⟨v', f', hn, hx, hy, hz, hvi⟩ := (plyPlan_iff hvalid q).1 h4
    rw [List.getElem?_map, hn.atVertex] at h5
    cases h5
    rw [List.getElem?_map, hn.atFace] at h8
    cases h8
    have ht : TakenAsPly N t ps polys := ⟨hdr, els, parts, q.ve, q.fe, v', f', vl, fl, hl ▸ linesOf t, hh, List.forall₂_map_left_iff.1 h3, hn, h7, h10,
      forall₂_iff (vertexLine_iff (hvalid v' (List.mem_of_getElem? hn.atVertex)) hx hy hz) h11, forall₂_iff (faceLine_iff N (hvalid f' (List.mem_of_getElem? hn.atFace)) hvi) h12⟩
    obtain ⟨k', hk⟩ := C102_taken dflt ht target
    exact ⟨ps, polys, k', ht, by rw [← hr, hk]⟩
  | false =>
    have hk := C47_ply N dflt (of t) target (by rw [hr])
    rw [hr] at hk
    refine .inr ⟨?_, k, by rw [← hk]⟩
    rintro ⟨ps, fs, ht⟩
    obtain ⟨k', hk'⟩ := C102_taken dflt ht target
    rw [hr] at hk'
    cases hk'

theorem parts_unique {E : List Elem} {parts parts' : List (List (List Char))} (h : List.Forall₂ (fun (e : Elem) part => part.length = e.count) E parts) (h' : List.Forall₂ (fun (e : Elem) part => part.length = e.count) E parts') (e : parts.flatten = parts'.flatten) : parts = parts' := by
  induction h generalizing parts' with
  | nil => cases h'; rfl
  | cons h1 h2 ih =>
    cases h' with
    | cons k1 k2 =>
      rw [List.flatten_cons, List.flatten_cons] at e
      obtain ⟨rfl, e'⟩ := List.append_inj e (by rw [h1, k1])
      rw [ih k2 e']

/-- The mesh is determined by the rules, polygon by polygon. -/
theorem C102_unique {N : Doubles F} {t : List Char} {ps ps' : List (P3 F)} {fs fs' : List (List Nat)} (h : TakenAsPly N t ps fs) (h' : TakenAsPly N t ps' fs') : ps = ps' ∧ fs = fs' := by
  obtain ⟨E, parts, q, v, f, vl, fl, h1, h2, h3, h4, h5, h6, h7, h8, h9, h10⟩ := ply_data h
  obtain ⟨E', parts', q', v', f', vl', fl', k1, k2, k3, k4, k5, k6, k7, k8, k9, k10⟩ := ply_data h'
  rw [h1] at k1
  simp only [Option.some.injEq, Prod.mk.injEq] at k1
  obtain ⟨rfl, e⟩ := k1
  obtain rfl := parts_unique h4 k4 e
  rw [h2] at k2
  cases k2
  rw [h5] at k5
  cases k5
  rw [h6] at k6
  cases k6
  rw [h7] at k7
  cases k7
  rw [h8] at k8
  cases k8
  exact ⟨forall₂_unique (R := PlyVertexLine N q v) (fun _ _ _ a b => a.1.symm.trans b.1) h9 k9, forall₂_unique (R := PlyFaceLine q f) (fun _ _ _ a b => a.1.symm.trans b.1) h10 k10⟩

theorem header_mono {C C' : List Char → Nat → Prop} (hC : ∀ w n, C w n → C' w n) {hdr : List (List Char)} {els : List Element} (h : Header C hdr els) : Header C' hdr els := by
  obtain ⟨init, l, last, decls, h1, h2, h3, h4, h5⟩ := h
  refine ⟨init, l, last, decls, h1, h2, h3.imp fun e d hd => ?_, h4, h5⟩
  cases hd with
  | intro c hc => exact .intro c (hC _ _ hc)

/-- PLY files keep to the rules. -/
theorem C102_files {N : Doubles F} {t : List Char} {ps : List (P3 F)} {fs : List (List Nat)} (h : IsPly N t ps fs) : TakenAsPly N t ps fs := by
  obtain ⟨hdr, els, parts, i, j, v, f, vl, fl, hl, hh, hc, hn, hvl, hfl, hps, hfs⟩ := h
  have hvalid : ∀ e ∈ els, ∀ p ∈ e.props, p.Valid := by
    obtain ⟨_, _, _, _, _, _, _, hv, _⟩ := hh
    exact hv
  obtain ⟨x, hx⟩ := hn.x
  obtain ⟨y, hy⟩ := hn.y
  obtain ⟨z, hz⟩ := hn.z
  obtain ⟨vi, hvi⟩ := hn.vertices
  have hv := hvalid v (List.mem_of_getElem? hn.atVertex)
  have hf := hvalid f (List.mem_of_getElem? hn.atFace)
  exact ⟨hdr, els, parts, i, j, v, f, vl, fl, hl, header_mono (fun _ _ => .inl) hh, hc, hn, hvl, hfl,
    hps.imp fun l p hp => (vertexLine_iff (q := ⟨i, x, y, z, j, vi⟩) hv hx hy hz l p).1 (vertexLine hv hx hy hz hp),
    hfs.imp fun l p hp => (faceLine_iff N (q := ⟨i, x, y, z, j, vi⟩) hf hvi l p).1 (faceLine hf hvi hp)⟩

/-- **A line that lacks something makes the reader fail**: if the number of lines after the header is as declared, but some line of a vertex or a face does not have all of its properties, the target is kept. -/
theorem C102_lines (N : Doubles F) (dflt : D) {t : List Char} {hdr : List (List Char)} {els : List Element} {parts : List (List (List Char))} (hl : LinesOf t (hdr ++ parts.flatten)) (hh : Header IsNatOrWrapped hdr els) (hc : List.Forall₂ (fun e part => part.length = e.count) els parts)
    {i j : Nat} {v f : Element} (hn : Needed els i j v f) {vl fl : List (List Char)} (hvl : parts[i]? = some vl) (hfl : parts[j]? = some fl) (hbad : (∃ l ∈ vl, ∀ p, ¬ VertexTaken N v.props l p) ∨ ∃ l ∈ fl, ∀ f', ¬ FaceTaken N f.props l f') (target : Soup (P3 F) D) :
    ∃ k, readPly N dflt (of t) target = (false, target, k) := by
  rcases C102_ply N dflt t target with ⟨ps, fs, k, h, -⟩ | ⟨-, h⟩
  · exfalso
    have hvalid : ∀ e ∈ els, ∀ p ∈ e.props, p.Valid := by
      obtain ⟨_, _, _, _, _, _, _, hv, _⟩ := hh
      exact hv
    obtain ⟨E, parts', q, v', f', vl', fl', h1, h2, h3, h4, h5, h6, h7, h8, h9, h10⟩ := ply_data h
    rw [lines_of hl, plyHeader_of (fun w n (hw : IsNatOrWrapped w n) => (countOf_iff (wrapped_tok hw) n).2 hw) hh] at h1
    simp only [Option.some.injEq, Prod.mk.injEq] at h1
    obtain ⟨rfl, e⟩ := h1
    have hc' : List.Forall₂ (fun (e : Elem) (part : List (List Char)) => part.length = e.count) (els.map toElem) parts := by
      rw [List.forall₂_map_left_iff]
      exact hc
    obtain rfl := parts_unique hc' h4 e
    obtain ⟨w, g, hn', hx, hy, hz, hvi⟩ := (plyPlan_iff hvalid q).1 h2
    obtain rfl := First.unique hn.vertex hn'.vertex
    obtain rfl := First.unique hn.face hn'.face
    have e1 := hn.atVertex.symm.trans hn'.atVertex
    cases e1
    have e2 := hn.atFace.symm.trans hn'.atFace
    cases e2
    rw [List.getElem?_map, hn.atVertex] at h5
    cases h5
    rw [List.getElem?_map, hn.atFace] at h6
    cases h6
    rw [hvl] at h7
    cases h7
    rw [hfl] at h8
    cases h8
    have left : ∀ {A B : Type} {R : A → B → Prop} {as : List A} {bs : List B}, List.Forall₂ R as bs → ∀ a ∈ as, ∃ b, R a b := by
      intro A B R as bs h
      induction h with
      | nil => intro a ha; cases ha
      | cons h1 _ ih =>
        intro a ha
        rcases List.mem_cons.1 ha with rfl | ha
        · exact ⟨_, h1⟩
        · exact ih a ha
    rcases hbad with ⟨l, hm, hb⟩ | ⟨l, hm, hb⟩
    · obtain ⟨p, hp⟩ := left h9 l hm
      exact hb p ((vertexLine_iff (hvalid v (List.mem_of_getElem? hn.atVertex)) hx hy hz l p).1 hp)
    · obtain ⟨p, hp⟩ := left h10 l hm
      exact hb p ((faceLine_iff N (hvalid f (List.mem_of_getElem? hn.atFace)) hvi l p).1 hp)
  · exact h

/-! Concrete texts. -/

example : TakenAsPly natDoubles Layout.text [(1, 2, 3), (4, 5, 6), (8, 0, 7)] [[2, 1, 0]] := C102_files Layout.isPly

/-- Numbers with signs need nothing between them; words start where the number of words ends. -/
theorem C102_glued : ∃ k, readPly natDoubles () (of "ply\nformat ascii 1.0\nelement vertex 1\nproperty list int int n\nproperty int x\nproperty int y\nproperty int z\nelement face 1\nproperty list int int vertex_index\nend_header\n1abc 7 8 9 10\n3+0-1 0;5\n".toList) Soup.empty =
    (true, ⟨[(7, 8, 9)], [⟨0, 2 ^ 64 - 1, 0⟩], [()]⟩, k) := ⟨4, by decide +kernel⟩

/-- A vertex of the file of C88 that lacks its last coordinate. -/
example (target : Soup (P3 Nat) Unit) : ∃ k, readPly natDoubles () (of (textOf (Layout.header ++ [["anything".toList], ["2 9 9 3 +1 2".toList, "0 6 4".toList, "1 9 7 8 0 red".toList], ["0 3 2 1 0".toList]].flatten))) target = (false, target, k) := by
  refine C102_lines natDoubles () (hdr := Layout.header) (els := Layout.elements) (i := 1) (j := 2) (v := Layout.elements[1]) (f := Layout.elements[2]) ⟨by decide +kernel, .inl rfl⟩ (header_mono (fun _ _ => .inl) Layout.isHeader) (.cons rfl (.cons rfl (.cons rfl .nil))) Layout.needed rfl rfl
    (.inl ⟨"0 6 4".toList, List.mem_cons_of_mem _ (List.mem_cons_self ..), fun p hp => ?_⟩) target
  rw [← vertexLine_iff (q := ⟨1, 2, 3, 1, 2, 1⟩) (by decide +kernel) (Layout.first_of (by decide +kernel)) (Layout.first_of (by decide +kernel)) (Layout.first_of (by decide +kernel))] at hp
  have h := hp.2
  revert h
  decide +kernel

end Kigumi.Props
