import Verif.Proofs.TextMeshFile
import Verif.Props.PlyFile

/-!
# OFF and OBJ files of any layout

`Spec/MeshFile` says what OFF and OBJ files mean.
-/
namespace Kigumi.Props
open Kigumi Kigumi.Text IS Ply Mesh

variable {F D : Type}

/-- **C89, OFF.** Every OFF file is read: with any signature, comments, blank lines, white space, plus signs, and whatever follows the numbers in a line. -/
theorem C89_off (N : Doubles F) (dflt : D) {t : List Char} {ps : List (P3 F)} {fs : List (List Nat)} (h : IsOff N t ps fs) (target : Soup (P3 F) D) :
    ∃ k, readOff N dflt (of t) target = (true, ⟨ps, fs.flatMap fan, List.replicate (fs.flatMap fan).length dflt⟩, k) := by
  obtain ⟨ls, sl, cl, vl, fl, x, y, rest, hl, hf, hsg, hcl, hx, hy, hps, hfs⟩ := h
  have hsig : ∀ l ∈ sl :: cl :: (vl ++ fl), significant l = true := by
    intro l hl
    rw [← hf] at hl
    exact (List.mem_filter.1 hl).2
  have h1 : offLine N dflt sl (⟨.signature, 0, 0, Soup.empty, 0⟩ : Off F D) = (true, ⟨.numbers, 0, 0, Soup.empty, 0⟩) := by
    obtain ⟨h1, h2⟩ := start_line (hsig sl (by simp))
    rcases offSignature_words h2 with ⟨-, h3, h4⟩ | ⟨h3, -⟩
    · unfold offLine
      dsimp only
      rw [if_neg (by simp [h1])]
      rw [if_neg (by simp [h3]), if_neg (by simp [h4])]
    · exact absurd hsg h3
  have h2 := offLine_numbers' N dflt (hsig cl (by simp)) (a := (⟨.numbers, 0, 0, Soup.empty, 0⟩ : Off F D)) rfl hcl hx hy
  obtain ⟨b, h3, h4, h5, h6⟩ := offLoop_vertices' (N := N) dflt (fl := fl) (fun l hl => hsig l (by simp [hl])) hps ⟨if vl.length = 0 then afterVertices fl.length else .vertices, vl.length, fl.length, Soup.empty, 0⟩ rfl rfl
  obtain ⟨c, h7, h8, h9⟩ := offLoop_faces' N dflt (fun l hl => hsig l (by simp [hl])) hfs b h4 h5
  refine ⟨c.stored, ?_⟩
  unfold readOff
  rw [if_neg (by simp [of]), lines_of hl, ← offLoop_significant, hf, offLoop_cons h1, offLoop_cons h2, h3, h7]
  dsimp only
  rw [if_neg (by simp), if_neg (by simp [h8]), h9, h6]
  simp [Soup.empty]

/-- **Only files with a signature are accepted**: texts that start with anything else, or whose signature says that they are binary, are not read. -/
theorem C89_off_signature (N : Doubles F) (dflt : D) {t : List Char} {target r : Soup (P3 F) D} {k : Nat} (h : readOff N dflt (of t) target = (true, r, k)) :
    ∃ ls sl rest, LinesOf t ls ∧ ls.filter significant = sl :: rest ∧ IsSignature (words sl) := by
  unfold readOff at h
  rw [if_neg (by simp [of]), ← offLoop_significant] at h
  refine ⟨lines (of t), ?_⟩
  rcases hf : (lines (of t)).filter significant with _ | ⟨sl, rest⟩
  · rw [hf] at h
    exact absurd h (by simp [offLoop])
  · refine ⟨sl, rest, linesOf t, rfl, ?_⟩
    have hsig : significant sl = true := (List.mem_filter.1 (show sl ∈ (lines (of t)).filter significant by rw [hf]; simp)).2
    obtain ⟨h1, h2⟩ := start_line hsig
    rcases offSignature_words h2 with ⟨h3, -⟩ | ⟨-, h3⟩
    · exact h3
    · exfalso
      have : (offLine N dflt sl (⟨.signature, 0, 0, Soup.empty, 0⟩ : Off F D)).1 = false := by
        unfold offLine
        dsimp only
        rw [if_neg (by simp [h1])]
        rcases h3 with h3 | h3
        · rw [if_pos h3]
        · split
          · rfl
          · rfl
      rw [hf, offLoop] at h
      rcases hx : offLine N dflt sl (⟨.signature, 0, 0, Soup.empty, 0⟩ : Off F D) with ⟨b, a⟩
      rw [hx] at h this
      dsimp only at this
      subst this
      simp at h

/-- **C89, OBJ.** Every OBJ file is read: with vertices and faces in any order, references from the start or backwards, with textures and normals or without, and lines of other kinds. -/
theorem C89_obj (N : Doubles F) (dflt : D) {t : List Char} {ps : List (P3 F)} {fs : List (List Nat)} (h : IsObj N t ps fs) (hps : ps.length < 2 ^ 64) (target : Soup (P3 F) D) :
    ∃ k, readObj N dflt (of t) target = (true, ⟨ps, fs.flatMap fan, List.replicate (fs.flatMap fan).length dflt⟩, k) := by
  obtain ⟨ls, hl, h⟩ := h
  obtain ⟨b, h1, h2⟩ := objLoop_words dflt h (by omega) (ls.filter significant) (fun l hl => (List.mem_filter.1 hl).2) rfl ⟨Soup.empty, 0⟩ rfl
  refine ⟨b.stored, ?_⟩
  unfold readObj
  rw [if_neg (by simp [of]), lines_of hl, ← objLoop_significant, h1]
  dsimp only
  rw [if_pos rfl, h2]
  simp [Soup.empty]

/-- **C90, OFF.** A face with fewer numbers than its number of vertices makes the reader fail, and the target is kept.  Missing: OBJ files, where the claim is false (`C90_obj_false`). -/
theorem C90_off_partial (N : Doubles F) (dflt : D) {t : List Char} {ls vl fl : List (List Char)} {sl cl a b : List Char} {rest : List (List Char)} (hl : LinesOf t ls) (hf : ls.filter significant = sl :: cl :: (vl ++ fl))
    (hcl : words cl = a :: b :: rest) (ha : IsNat a vl.length) (hbad : ∃ l ∈ fl, Incomplete (words l)) (target : Soup (P3 F) D) : ∃ k, readOff N dflt (of t) target = (false, target, k) := by
  rcases hr : readOff N dflt (of t) target with ⟨o, r, k⟩
  cases o with
  | false =>
    have := C47_off N dflt (of t) target (by rw [hr])
    rw [hr] at this
    exact ⟨k, by rw [← this]⟩
  | true =>
    exfalso
    obtain ⟨sg, l, nv, nf, vl', fl', ps, polys, h1, h2, h3, -, -, h5, -⟩ := C50_off N dflt t target r k hr
    rw [lines_of hl, hf] at h1
    injection h1 with _ h1
    injection h1 with h6 h1
    subst h6
    have hnv : nv = vl.length := by
      have hat := at_of cl
      rw [hcl] at hat
      obtain ⟨s', e, -⟩ := hat.readSize ha 0
      rw [← h2.1, e]
    obtain ⟨-, rfl⟩ := List.append_inj h1 (by rw [h3, hnv])
    obtain ⟨l, hm, hi⟩ := hbad
    obtain ⟨vs, hvs⟩ : ∃ vs, PolygonLine l vs := by
      clear hr hf h1
      induction h5 with
      | nil => cases hm
      | cons h _ ih => rcases List.mem_cons.1 hm with rfl | hm
                       · exact ⟨_, h⟩
                       · exact ih hm
    have h7 := Incomplete.fails (at_of l) hi
    rw [hvs.1, hvs.2.2] at h7
    cases h7

/-- **C90, PLY.** The same; the line has values of the properties that come before the list of vertices. -/
theorem C90_ply_partial (N : Doubles F) (dflt : D) {t : List Char} {hdr : List (List Char)} {parts : List (List (List Char))} {els : List Element} {i j : Nat} {v f : Element} {fl : List (List Char)} {pre post : List Property} {p : Property}
    (hl : LinesOf t (hdr ++ parts.flatten)) (hh : Header IsNat hdr els) (hc : List.Forall₂ (fun e part => part.length = e.count) els parts) (hn : Needed els i j v f) (hfl : parts[j]? = some fl) (hp : f.props = pre ++ p :: post) (hv : Vertices f.props pre.length)
    (hbad : ∃ l ∈ fl, ∃ r, Before pre (words l) r ∧ Incomplete r) (target : Soup (P3 F) D) : ∃ k, readPly N dflt (of t) target = (false, target, k) := by
  have hhead : plyHeader (lines (of t)) .signature [] = some (els.map toElem, parts.flatten) := by
    rw [lines_of hl]
    refine plyHeader_of (fun w n (hw : IsNat w n) => ?_) hh
    refine (countOf_iff ?_ n).2 (.inl hw)
    obtain ⟨-, ds, h1, h2, h3, -⟩ := hw
    rcases h1 with rfl | rfl
    · exact ⟨h2, fun c hc => isDigit_not_space (h3 c hc)⟩
    · refine ⟨by simp, fun c hc => ?_⟩
      rcases List.mem_cons.1 hc with rfl | hc
      · rfl
      · exact isDigit_not_space (h3 c hc)
  have hvalid : ∀ e ∈ els, ∀ p ∈ e.props, p.Valid := by
    obtain ⟨_, _, _, _, _, _, _, hv, _⟩ := hh
    exact hv
  rcases hr : readPly N dflt (of t) target with ⟨b, r, k⟩
  cases b with
  | false =>
    have := C47_ply N dflt (of t) target (by rw [hr])
    rw [hr] at this
    exact ⟨k, by rw [← this]⟩
  | true =>
    exfalso
    obtain ⟨E, body', parts', q, v', f', vl, fl', ps, polys, h1, h2, h3, h4, -, -, -, h8, -, h10, -, h12, -⟩ := C50_ply N dflt t target r k hr
    rw [hhead] at h1
    injection h1 with h1
    injection h1 with h1 h1'
    subst h1 h1'
    obtain ⟨v'', f'', hn', -, -, -, hvi⟩ := (plyPlan_iff hvalid q).1 h4
    obtain rfl := First.unique hn.face hn'.face
    have hff : f'' = f := by
      have := hn.atFace
      rw [hn'.atFace] at this
      exact Option.some.inj this
    subst hff
    rw [List.getElem?_map, hn.atFace] at h8
    cases h8
    rw [List.forall₂_map_left_iff] at h3
    have hparts : parts' = parts := by
      clear hr hhead h4 h10 hfl hl hh hn hn' hvalid
      induction hc generalizing parts' with
      | nil => cases h3; rfl
      | @cons e part els parts h hc ih =>
        cases h3 with
        | @cons _ part' _ parts' h' h3 =>
          rw [List.flatten_cons, List.flatten_cons] at h2
          have h' : part'.length = e.count := h'
          obtain ⟨rfl, h4⟩ := List.append_inj h2 (by rw [h, h'])
          rw [ih _ h3 h4]
    subst hparts
    rw [hfl] at h10
    cases h10
    obtain ⟨l, hm, r, hb, hi⟩ := hbad
    obtain ⟨vs, hvs⟩ : ∃ vs, PlyFaceLine q (toElem f'') l vs := by
      clear hr hfl
      induction h12 with
      | nil => cases hm
      | cons h _ ih => rcases List.mem_cons.1 hm with rfl | hm
                       · exact ⟨_, h⟩
                       · exact ih hm
    have hvf := hvalid f'' (List.mem_of_getElem? hn.atFace)
    have h7 := plyFace_incomplete (fun x hx => hvf x (by rw [hp]; simp [hx])) hb hi (toProp p) (post.map toProp) 0 (at_of l) []
    have hq : q.vi = pre.length := First.unique hvi hv
    have h8 := hvs.2
    rw [hq, show (toElem f'').props = pre.map toProp ++ toProp p :: post.map toProp by simp [toElem, hp]] at h8
    rw [Nat.zero_add] at h7
    rw [h7] at h8
    cases h8

/-- **C90** is false for OBJ: what follows the first word that is no number is ignored without a message, so that the face has fewer vertices, also if a face goes on in the next line after a backslash. -/
theorem C90_obj_false : (∃ k, readObj natDoubles () (of "v 0 0 0\nv 1 0 0\nv 1 1 0\nv 0 1 0\nf 1 2 3 x4\n".toList) Soup.empty = (true, ⟨[(0, 0, 0), (1, 0, 0), (1, 1, 0), (0, 1, 0)], [⟨0, 1, 2⟩], [()]⟩, k)) ∧
    ∃ k, readObj natDoubles () (of "v 0 0 0\nv 1 0 0\nv 1 1 0\nv 0 1 0\nf 1 2 3 \\\n4\n".toList) Soup.empty = (true, ⟨[(0, 0, 0), (1, 0, 0), (1, 1, 0), (0, 1, 0)], [⟨0, 1, 2⟩], [()]⟩, k) :=
  ⟨⟨7, by decide +kernel⟩, ⟨7, by decide +kernel⟩⟩

/-! Concrete files. -/
namespace Layout

/-- Colours, a comment after the signature, a plus sign, a quadrangle, and no line break at the end. -/
def offFile : List Char := "# by hand\nSTCOFF # colours\n\n +4 1\n0 0 0 255 0 0\n1 0 0\n1 +1 0\n0 1 0\n\t4 0 1 2 3 0.5".toList

def n (w : String) (v : Nat) (h : (w.toList ≠ [] ∧ w.toList.all isDigit = true) ∧ digitsValue 0 w.toList = v ∧ v < 2 ^ 64) : IsNat w.toList v := isNat_of w.toList (.inl rfl) h.1.1 h.1.2 h.2.1 h.2.2

theorem isOff : IsOff natDoubles offFile [(0, 0, 0), (1, 0, 0), (1, 1, 0), (0, 1, 0)] [[0, 1, 2, 3]] := by
  refine ⟨["# by hand".toList, "STCOFF # colours".toList, "".toList, " +4 1".toList, "0 0 0 255 0 0".toList, "1 0 0".toList, "1 +1 0".toList, "0 1 0".toList, "\t4 0 1 2 3 0.5".toList], "STCOFF # colours".toList, " +4 1".toList,
    ["0 0 0 255 0 0".toList, "1 0 0".toList, "1 +1 0".toList, "0 1 0".toList], ["\t4 0 1 2 3 0.5".toList], "+4".toList, "1".toList, [],
    ⟨by decide +kernel, .inr ⟨["# by hand".toList, "STCOFF # colours".toList, "".toList, " +4 1".toList, "0 0 0 255 0 0".toList, "1 0 0".toList, "1 +1 0".toList, "0 1 0".toList], _, rfl, by decide, by decide +kernel⟩⟩,
    by decide +kernel, ⟨"STCOFF".toList, ["#".toList, "colours".toList], by decide +kernel, by decide +kernel, .inr ⟨[], _, rfl⟩⟩, by decide +kernel,
    isNat_of "4".toList (.inr rfl) (by decide) (by decide) (by decide) (by decide), n "1" 1 (by decide +kernel), .cons ?_ (.cons ?_ (.cons ?_ (.cons ?_ .nil))), .cons ?_ .nil⟩
  · exact ⟨"0".toList, "0".toList, "0".toList, ["255".toList, "0".toList, "0".toList], by decide +kernel, real_of "0".toList (.inr (by decide)) (by decide), real_of "0".toList (.inr (by decide)) (by decide), real_of "0".toList (.inr (by decide)) (by decide)⟩
  · exact ⟨"1".toList, "0".toList, "0".toList, [], by decide +kernel, real_of "1".toList (.inr (by decide)) (by decide), real_of "0".toList (.inr (by decide)) (by decide), real_of "0".toList (.inr (by decide)) (by decide)⟩
  · exact ⟨"1".toList, "+1".toList, "0".toList, [], by decide +kernel, real_of "1".toList (.inr (by decide)) (by decide), real_of "1".toList (.inl (by decide)) (by decide), real_of "0".toList (.inr (by decide)) (by decide)⟩
  · exact ⟨"0".toList, "1".toList, "0".toList, [], by decide +kernel, real_of "0".toList (.inr (by decide)) (by decide), real_of "1".toList (.inr (by decide)) (by decide), real_of "0".toList (.inr (by decide)) (by decide)⟩
  · exact ⟨"4".toList, ["0".toList, "1".toList, "2".toList, "3".toList], ["0.5".toList], by decide +kernel, n "4" 4 (by decide +kernel),
      .cons (n "0" 0 (by decide +kernel)) (.cons (n "1" 1 (by decide +kernel)) (.cons (n "2" 2 (by decide +kernel)) (.cons (n "3" 3 (by decide +kernel)) .nil)))⟩

example : ∃ k, readOff natDoubles () (of offFile) Soup.empty = (true, ⟨[(0, 0, 0), (1, 0, 0), (1, 1, 0), (0, 1, 0)], [⟨0, 1, 2⟩, ⟨0, 2, 3⟩], [(), ()]⟩, k) := C89_off natDoubles () isOff _

/-- Other lines, faces between vertices, both kinds of references, textures and normals, and a comment after a face. -/
def objFile : List Char := "o square\nv 0 0 0\nv 1 0 0 # corner\nvn 0 0 1\nv 1 1 0\nf 1//1 +2/1/1 -1 # half\nv 0 1 0\nf -4 -2/7 4\n".toList

theorem int_of {w : List Char} {v : Int} (ds : List Char) (h1 : ds ≠ []) (h2 : ds.all isDigit = true) (h3 : -2 ^ 63 ≤ v ∧ v < 2 ^ 63) (h : (w = ds ∨ w = '+' :: ds) ∧ v = digitsValue 0 ds ∨ w = '-' :: ds ∧ v = -(digitsValue 0 ds : Int)) : IsInt w v := ⟨h3.1, h3.2, ds, h1, List.all_eq_true.1 h2, h⟩

theorem isObj : IsObj natDoubles objFile [(0, 0, 0), (1, 0, 0), (1, 1, 0), (0, 1, 0)] [[0, 1, 2], [0, 2, 3]] := by
  refine ⟨["o square".toList, "v 0 0 0".toList, "v 1 0 0 # corner".toList, "vn 0 0 1".toList, "v 1 1 0".toList, "f 1//1 +2/1/1 -1 # half".toList, "v 0 1 0".toList, "f -4 -2/7 4".toList],
    ⟨by decide +kernel, .inl (by decide +kernel)⟩, ?_⟩
  have hw : (["o square".toList, "v 0 0 0".toList, "v 1 0 0 # corner".toList, "vn 0 0 1".toList, "v 1 1 0".toList, "f 1//1 +2/1/1 -1 # half".toList, "v 0 1 0".toList, "f -4 -2/7 4".toList].filter significant).map words =
      [["o".toList, "square".toList], ["v".toList, "0".toList, "0".toList, "0".toList], ["v".toList, "1".toList, "0".toList, "0".toList, "#".toList, "corner".toList], ["vn".toList, "0".toList, "0".toList, "1".toList],
        ["v".toList, "1".toList, "1".toList, "0".toList], "f".toList :: (["1//1".toList, "+2/1/1".toList, "-1".toList] ++ ["#".toList, "half".toList]), ["v".toList, "0".toList, "1".toList, "0".toList], "f".toList :: (["-4".toList, "-2/7".toList, "4".toList] ++ [])] := by
    decide +kernel
  rw [hw]
  have r0 : IsReal natDoubles "0".toList 0 := real_of "0".toList (.inr (by decide)) (by decide)
  have r1 : IsReal natDoubles "1".toList 1 := real_of "1".toList (.inr (by decide)) (by decide)
  refine .other (by decide) (by decide) (.vertex ⟨_, _, _, [], rfl, r0, r0, r0⟩ (.vertex ⟨_, _, _, _, rfl, r1, r0, r0⟩ (.other (by decide) (by decide) (.vertex ⟨_, _, _, [], rfl, r1, r1, r0⟩
    (.face (.cons ?_ (.cons ?_ (.cons ?_ .nil))) (.inr ⟨[], _, rfl⟩) (.vertex ⟨_, _, _, [], rfl, r0, r1, r0⟩ (.face (.cons ?_ (.cons ?_ (.cons ?_ .nil))) (.inl rfl) (.nil _))))))))
  · exact ⟨"1".toList, "//1".toList, 1, by decide, .inr ⟨_, rfl⟩, int_of "1".toList (by decide) (by decide) (by decide) (.inl (by decide)), .inl (by decide)⟩
  · exact ⟨"+2".toList, "/1/1".toList, 2, by decide, .inr ⟨_, rfl⟩, int_of "2".toList (by decide) (by decide) (by decide) (.inl (by decide)), .inl (by decide)⟩
  · exact ⟨"-1".toList, [], -1, by decide, .inl rfl, int_of "1".toList (by decide) (by decide) (by decide) (.inr (by decide)), .inr (by decide)⟩
  · exact ⟨"-4".toList, [], -4, by decide, .inl rfl, int_of "4".toList (by decide) (by decide) (by decide) (.inr (by decide)), .inr (by decide)⟩
  · exact ⟨"-2".toList, "/7".toList, -2, by decide, .inr ⟨_, rfl⟩, int_of "2".toList (by decide) (by decide) (by decide) (.inr (by decide)), .inr (by decide)⟩
  · exact ⟨"4".toList, [], 4, by decide, .inl rfl, int_of "4".toList (by decide) (by decide) (by decide) (.inl (by decide)), .inl (by decide)⟩

example : ∃ k, readObj natDoubles () (of objFile) Soup.empty = (true, ⟨[(0, 0, 0), (1, 0, 0), (1, 1, 0), (0, 1, 0)], [⟨0, 1, 2⟩, ⟨0, 2, 3⟩], [(), ()]⟩, k) := C89_obj natDoubles () isObj (by decide) _

/-- The face of the file above with a letter instead of its last vertex. -/
example : ∃ k, readOff natDoubles () (of "OFF\n3 1\n0 0 0\n1 0 0\n1 1 0\n3 0 1 x\n".toList) square = (false, square, k) :=
  C90_off_partial natDoubles () (ls := ["OFF".toList, "3 1".toList, "0 0 0".toList, "1 0 0".toList, "1 1 0".toList, "3 0 1 x".toList]) (vl := ["0 0 0".toList, "1 0 0".toList, "1 1 0".toList]) (fl := ["3 0 1 x".toList])
    (sl := "OFF".toList) (cl := "3 1".toList) (a := "3".toList) (b := "1".toList) (rest := []) ⟨by decide +kernel, .inl (by decide +kernel)⟩ (by decide +kernel) (by decide +kernel) (n "3" 3 (by decide +kernel))
    ⟨_, List.mem_singleton.2 rfl, "3".toList, 3, ["0".toList, "1".toList], [0, 1], ["x".toList], by decide +kernel, n "3" 3 (by decide +kernel), .cons (n "0" 0 (by decide +kernel)) (.cons (n "1" 1 (by decide +kernel)) .nil), by decide,
      .inr ⟨'x', [], [], rfl, by decide, by decide, by decide⟩⟩ _

/-- All signatures are told from the others. -/
example : IsSignature [("CNOFF").toList] ∧ ¬ IsSignature [("NCOFF").toList] ∧ ¬ IsSignature [("OFF").toList, ("BINARY").toList] := by
  refine ⟨⟨_, [], rfl, by decide +kernel, .inl rfl⟩, ?_, ?_⟩
  · rintro ⟨name, rest, h, hn, -⟩
    cases h
    exact absurd hn (by decide +kernel)
  · rintro ⟨name, rest, h, -, hc⟩
    injection h with _ h
    subst h
    rcases hc with hc | ⟨r, rest, hc⟩
    · cases hc
    · injection hc with hc _
      exact absurd hc (by intro e; injection e with e _; exact absurd e (by decide))

end Layout

end Kigumi.Props
