import Verif.Proofs.TextPlyRead
import Verif.Props.TextIO

/-!
# PLY files of any layout

`Spec/PlyFile` says what PLY files are: any elements in any order, with any properties, comments and any white space. The reader gets the mesh out of all of them, and accepts nothing that lacks what is needed.
-/
namespace Kigumi.Props
open Kigumi Kigumi.Text IS Ply

variable {F D : Type}

/-- **C88.** Every PLY file is read: the points are those of the element `vertex`, whatever the order of its properties and whatever else there is, and the faces are the fans of the polygons of the element `face`. -/
theorem C88_read (N : Doubles F) (dflt : D) {t : List Char} {ps : List (P3 F)} {fs : List (List Nat)} (h : IsPly N t ps fs) (target : Soup (P3 F) D) :
    ∃ k, readPly N dflt (of t) target = (true, ⟨ps, fs.flatMap fan, List.replicate (fs.flatMap fan).length dflt⟩, k) := by
  obtain ⟨hdr, els, parts, i, j, v, f, vl, fl, hl, hh, hc, hn, hvl, hfl, hps, hfs⟩ := h
  have hvalid : ∀ e ∈ els, ∀ p ∈ e.props, p.Valid := by
    obtain ⟨_, _, _, _, _, _, _, hv, _⟩ := hh
    exact hv
  obtain ⟨x, hx⟩ := hn.x
  obtain ⟨y, hy⟩ := hn.y
  obtain ⟨z, hz⟩ := hn.z
  obtain ⟨vi, hvi⟩ := hn.vertices
  have hplan : plyPlan (els.map toElem) = some ⟨i, x, y, z, j, vi⟩ := (plyPlan_iff hvalid _).2 ⟨v, f, hn, hx, hy, hz, hvi⟩
  have hij : i ≠ j := by
    rintro rfl
    obtain ⟨⟨a, a1, a2⟩, -⟩ := hn.vertex
    obtain ⟨⟨b, b1, b2⟩, -⟩ := hn.face
    rw [a1] at b1
    cases b1
    exact absurd (a2.symm.trans b2) (by decide)
  have hlen : i < els.length ∧ j < els.length := by
    obtain ⟨h1, -⟩ := List.getElem?_eq_some_iff.1 hn.atVertex
    obtain ⟨h2, -⟩ := List.getElem?_eq_some_iff.1 hn.atFace
    exact ⟨h1, h2⟩
  have hc' : List.Forall₂ (fun (e : Elem) (part : List (List Char)) => part.length = e.count) (els.map toElem) parts := by
    rw [List.forall₂_map_left_iff]
    exact hc
  obtain ⟨b, hb, hloop⟩ := plyLoop_parts N dflt ⟨i, x, y, z, j, vi⟩ hij hc' 0 (ps := ps) (fs := fs)
    (by
      intro k e part hk he hp
      have hk : k = i := by simpa using hk
      subst hk
      rw [hvl] at hp
      cases hp
      rw [List.getElem?_map, hn.atVertex] at he
      cases he
      exact hps.imp fun l p hp => vertexLine (hvalid v (List.mem_of_getElem? hn.atVertex)) hx hy hz hp)
    (by
      intro k e part hk he hp
      have hk : k = j := by simpa using hk
      subst hk
      rw [hfl] at hp
      cases hp
      rw [List.getElem?_map, hn.atFace] at he
      cases he
      exact hfs.imp fun l p hp => faceLine (hvalid f (List.mem_of_getElem? hn.atFace)) hvi hp)
    (by simpa using hlen.1) (by simpa using hlen.2) ⟨Soup.empty, 0⟩
  refine ⟨b.stored, ?_⟩
  unfold readPly
  rw [if_neg (by simp [of]), lines_of hl, plyHeader_of (fun w n (hw : IsNat w n) => by
    refine (countOf_iff ?_ n).2 (.inl hw)
    obtain ⟨-, ds, h1, h2, h3, -⟩ := hw
    rcases h1 with rfl | rfl
    · exact ⟨h2, fun c hc => isDigit_not_space (h3 c hc)⟩
    · refine ⟨by simp, fun c hc => ?_⟩
      rcases List.mem_cons.1 hc with rfl | hc
      · rfl
      · exact isDigit_not_space (h3 c hc)) hh]
  dsimp only
  rw [hplan]
  dsimp only
  rw [hloop]
  dsimp only
  rw [if_neg (by simp), if_neg (by simp), hb]
  simp [Soup.empty]

/-- **What is accepted is a PLY file.** If the reader succeeds, the text has a header (where numbers of instances may be written as negative ones) that declares what is needed, and as many lines for each element as declared, and nothing else. -/
theorem C88_accepts (N : Doubles F) (dflt : D) {t : List Char} {target r : Soup (P3 F) D} {k : Nat} (h : readPly N dflt (of t) target = (true, r, k)) :
    ∃ hdr els parts i j v f, LinesOf t (hdr ++ parts.flatten) ∧ Header IsNatOrWrapped hdr els ∧ List.Forall₂ (fun e part => part.length = e.count) els parts ∧ Needed els i j v f ∧ r.points.length = v.count := by
  obtain ⟨E, body, parts, q, v, f, vl, fl, ps, polys, h1, rfl, h3, h4, h5, -, h7, -, -, -, -, -, -, -, h15⟩ := C50_ply N dflt t target r k h
  obtain ⟨hdr, els, hl, hh, rfl⟩ := plyHeader_inv h1
  have hvalid : ∀ e ∈ els, ∀ p ∈ e.props, p.Valid := by
    obtain ⟨_, _, _, _, _, _, _, hv, _⟩ := hh
    exact hv
  obtain ⟨v', f', hn, -⟩ := (plyPlan_iff hvalid q).1 h4
  refine ⟨hdr, els, parts, q.ve, q.fe, v', f', hl ▸ linesOf t, hh, (List.forall₂_map_left_iff.1 h3), hn, ?_⟩
  rw [List.getElem?_map, hn.atVertex] at h5
  cases h5
  exact h15

/-- **Files that lack something are refused.** If a header does not declare what is needed, or the number of lines after it is not the declared one, the reader fails and leaves the target as it is. -/
theorem C88_refuses (N : Doubles F) (dflt : D) {t : List Char} {hdr body : List (List Char)} {els : List Element} (hl : LinesOf t (hdr ++ body)) (hh : Header IsNat hdr els)
    (hbad : (∀ i j v f, ¬ Needed els i j v f) ∨ body.length ≠ (els.map Element.count).sum) (target : Soup (P3 F) D) : ∃ k, readPly N dflt (of t) target = (false, target, k) := by
  have hhead : plyHeader (lines (of t)) .signature [] = some (els.map toElem, body) := by
    rw [lines_of hl]
    refine plyHeader_of (fun w n (hw : IsNat w n) => ?_) hh
    refine (countOf_iff ?_ n).2 (.inl hw)
    obtain ⟨-, ds, h1, h2, h3, -⟩ := hw
    rcases h1 with rfl | rfl
    · exact ⟨h2, fun c hc => isDigit_not_space (h3 c hc)⟩
    · refine ⟨by simp, fun c hc => ?_⟩
      rcases List.mem_cons.1 hc with rfl | hc
      · rfl
      · exact isDigit_not_space (h3 c hc)
  have hvalid : ∀ e ∈ els, ∀ p ∈ e.props, p.Valid := by
    obtain ⟨_, _, _, _, _, _, _, hv, _⟩ := hh
    exact hv
  rcases hr : readPly N dflt (of t) target with ⟨b, r, k⟩
  cases b with
  | false =>
    have := C47_ply N dflt (of t) target (by rw [hr])
    rw [hr] at this
    exact ⟨k, by rw [← this]⟩
  | true =>
    exfalso
    obtain ⟨E, body', parts, q, v, f, vl, fl, ps, polys, h1, rfl, h3, h4, -⟩ := C50_ply N dflt t target r k hr
    rw [hhead] at h1
    cases h1
    rcases hbad with hbad | hbad
    · obtain ⟨v', f', hn, -⟩ := (plyPlan_iff hvalid q).1 h4
      exact hbad _ _ _ _ hn
    · refine hbad ?_
      clear hhead hl hh h4 hr hbad hvalid
      rw [List.forall₂_map_left_iff] at h3
      induction h3 with
      | nil => rfl
      | cons h _ ih => rw [List.flatten_cons, List.length_append, ih, h]; rfl

/-! A file with an element that does not matter, a list among the coordinates, a list with the name of a coordinate, and so on. -/
namespace Layout

def header : List (List Char) := ["ply\r".toList, "format  ascii 1.0".toList, "comment made by hand".toList, "element camera 1".toList, "property float x".toList, "element vertex +3".toList, "property list uchar float y".toList,
  "property float z".toList, "".toList, "property float x".toList, "property float y".toList, "element face 01".toList, "property uchar flag".toList, "property list uchar int vertex_indices".toList, "end_header".toList]

def elements : List Element := [⟨"camera".toList, 1, [.scalar "float".toList "x".toList]⟩,
  ⟨"vertex".toList, 3, [.list "uchar".toList "float".toList "y".toList, .scalar "float".toList "z".toList, .scalar "float".toList "x".toList, .scalar "float".toList "y".toList]⟩,
  ⟨"face".toList, 1, [.scalar "uchar".toList "flag".toList, .list "uchar".toList "int".toList "vertex_indices".toList]⟩]

def parts : List (List (List Char)) := [["anything".toList], ["2 9 9 3 +1 2".toList, "0 6 4 5".toList, "1 9 7 8 0 red".toList], ["0 3 2 1 0".toList]]

def text : List Char := "ply\r\nformat  ascii 1.0\ncomment made by hand\nelement camera 1\nproperty float x\nelement vertex +3\nproperty list uchar float y\nproperty float z\n\nproperty float x\nproperty float y\nelement face 01\nproperty uchar flag\nproperty list uchar int vertex_indices\nend_header\nanything\n2 9 9 3 +1 2\n0 6 4 5\n1 9 7 8 0 red\n0 3 2 1 0".toList

theorem isNat_of {w : List Char} {n : Nat} (ds : List Char) (h : w = ds ∨ w = '+' :: ds) (h1 : ds ≠ []) (h2 : ds.all isDigit = true) (h3 : digitsValue 0 ds = n) (h4 : n < 2 ^ 64) : IsNat w n := ⟨h4, ds, h, h1, List.all_eq_true.1 h2, h3⟩

theorem isHeader : Header IsNat header elements := by
  refine ⟨header.dropLast, "end_header".toList, [], [[["element".toList, "camera".toList, "1".toList], ["property".toList, "float".toList, "x".toList]],
    [["element".toList, "vertex".toList, "+3".toList], ["property".toList, "list".toList, "uchar".toList, "float".toList, "y".toList], ["property".toList, "float".toList, "z".toList], ["property".toList, "float".toList, "x".toList], ["property".toList, "float".toList, "y".toList]],
    [["element".toList, "face".toList, "01".toList], ["property".toList, "uchar".toList, "flag".toList], ["property".toList, "list".toList, "uchar".toList, "int".toList, "vertex_indices".toList]]], by decide +kernel, by decide +kernel, ?_, ?_, by decide +kernel⟩
  · refine .cons (.intro _ ?_) (.cons (.intro _ ?_) (.cons (.intro _ ?_) .nil))
    · exact isNat_of "1".toList (.inl rfl) (by decide) (by decide) (by decide) (by decide)
    · exact isNat_of "3".toList (.inr rfl) (by decide) (by decide) (by decide) (by decide)
    · exact isNat_of "01".toList (.inl rfl) (by decide) (by decide) (by decide) (by decide)
  · decide +kernel

theorem first_of {α : Type} {l : List α} {P : α → Prop} [DecidablePred P] {i : Nat} (h : l.findIdx? (fun a => decide (P a)) = some i) : First l P i := (first_find (fun _ _ => decide_eq_true_iff) i).1 h

theorem needed : Needed elements 1 2 elements[1] elements[2] where
  vertex := first_of (by decide +kernel)
  face := first_of (by decide +kernel)
  atVertex := rfl
  atFace := rfl
  x := ⟨2, first_of (by decide +kernel)⟩
  y := ⟨3, first_of (by decide +kernel)⟩
  z := ⟨1, first_of (by decide +kernel)⟩
  vertices := ⟨1, first_of (by decide +kernel)⟩

theorem real_of {w : List Char} {x : Nat} (r : List Char) (h : w = '+' :: r ∨ w = r ∧ w.head? ≠ some '+') (hr : natDoubles.parse r = some x) : IsReal natDoubles w x := by
  rcases h with h | ⟨rfl, h⟩
  · exact .inl ⟨r, h, hr⟩
  · exact .inr ⟨fun r e => h (by rw [e]; rfl), hr⟩

theorem vertex_of {l w1 w2 w3 c : List Char} {items rest : List (List Char)} {p : P3 Nat} (hl : words l = c :: (items ++ w1 :: w2 :: w3 :: rest)) (hc : IsNat c items.length) (h1 : IsReal natDoubles w1 p.2.2) (h2 : IsReal natDoubles w2 p.1) (h3 : IsReal natDoubles w3 p.2.1) :
    IsVertex natDoubles elements[1].props l p := by
  refine ⟨[.many items, .one w1, .one w2, .one w3], 2, 3, 1, w2, w3, w1, ?_, first_of (by decide +kernel), first_of (by decide +kernel), first_of (by decide +kernel), rfl, rfl, rfl, h2, h3, h1⟩
  rw [hl]
  exact .many rfl hc (.one rfl (.one rfl (.one rfl (.nil rest))))

theorem isPly : IsPly natDoubles text [(1, 2, 3), (4, 5, 6), (8, 0, 7)] [[2, 1, 0]] := by
  refine ⟨header, elements, parts, 1, 2, elements[1], elements[2], parts[1], parts[2], ⟨by decide +kernel, .inr ⟨header ++ parts.flatten.dropLast, "0 3 2 1 0".toList, by decide +kernel, by decide, by decide +kernel⟩⟩, isHeader,
    .cons rfl (.cons rfl (.cons rfl .nil)), needed, rfl, rfl, .cons ?_ (.cons ?_ (.cons ?_ .nil)), .cons ?_ .nil⟩
  · exact vertex_of (c := "2".toList) (items := ["9".toList, "9".toList]) (w1 := "3".toList) (w2 := "+1".toList) (w3 := "2".toList) (rest := []) (by decide +kernel) (isNat_of "2".toList (.inl rfl) (by decide) (by decide) (by decide) (by decide))
      (real_of "3".toList (.inr (by decide)) (by decide)) (real_of "1".toList (.inl (by decide)) (by decide)) (real_of "2".toList (.inr (by decide)) (by decide))
  · exact vertex_of (c := "0".toList) (items := []) (w1 := "6".toList) (w2 := "4".toList) (w3 := "5".toList) (rest := []) (by decide +kernel) (isNat_of "0".toList (.inl rfl) (by decide) (by decide) (by decide) (by decide))
      (real_of "6".toList (.inr (by decide)) (by decide)) (real_of "4".toList (.inr (by decide)) (by decide)) (real_of "5".toList (.inr (by decide)) (by decide))
  · exact vertex_of (c := "1".toList) (items := ["9".toList]) (w1 := "7".toList) (w2 := "8".toList) (w3 := "0".toList) (rest := ["red".toList]) (by decide +kernel) (isNat_of "1".toList (.inl rfl) (by decide) (by decide) (by decide) (by decide))
      (real_of "7".toList (.inr (by decide)) (by decide)) (real_of "8".toList (.inr (by decide)) (by decide)) (real_of "0".toList (.inr (by decide)) (by decide))
  · refine ⟨[.one "0".toList, .many ["2".toList, "1".toList, "0".toList]], 1, ["2".toList, "1".toList, "0".toList], ?_, first_of (by decide +kernel), rfl, .cons ?_ (.cons ?_ (.cons ?_ .nil))⟩
    · rw [show words "0 3 2 1 0".toList = ["0".toList, "3".toList, "2".toList, "1".toList, "0".toList] by decide +kernel]
      exact .one rfl (.many (items := ["2".toList, "1".toList, "0".toList]) (ws := []) rfl (isNat_of "3".toList (.inl rfl) (by decide) (by decide) (by decide) (by decide)) (.nil []))
    · exact isNat_of "2".toList (.inl rfl) (by decide) (by decide) (by decide) (by decide)
    · exact isNat_of "1".toList (.inl rfl) (by decide) (by decide) (by decide) (by decide)
    · exact isNat_of "0".toList (.inl rfl) (by decide) (by decide) (by decide) (by decide)

/-- The file is read, and without its last line it is not. -/
example : ∃ k, readPly natDoubles () (of text) Soup.empty = (true, ⟨[(1, 2, 3), (4, 5, 6), (8, 0, 7)], [⟨2, 1, 0⟩], [()]⟩, k) := C88_read natDoubles () isPly _
example : ∃ k, readPly natDoubles () (of (textOf (header ++ parts.flatten.dropLast))) square = (false, square, k) :=
  C88_refuses natDoubles () ⟨by decide +kernel, .inl rfl⟩ isHeader (.inr (by decide +kernel)) _

end Layout

end Kigumi.Props
