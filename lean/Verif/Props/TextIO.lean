import Verif.Proofs.TextCounts

/-!
# Mesh files (C44–C52)
-/
namespace Kigumi.Text
open Kigumi IS

variable {F P D : Type}

/-! ## A concrete number format -/

/-- Natural numbers as "doubles", for examples. -/
def natDoubles : Doubles Nat := ⟨0, dec, fun t => if t ≠ [] ∧ t.all isDigit = true then some (decVal t) else none⟩

theorem natDoubles_lawful : natDoubles.Lawful where
  parse_fmt x := by
    show (if dec x ≠ [] ∧ (dec x).all isDigit = true then some (decVal (dec x)) else none) = some x
    rw [if_pos ⟨dec_ne x, List.all_eq_true.2 (dec_digits x)⟩, decVal_dec]
  tok x := dec_tok x
  head x c r h := by
    have : isDigit c = true := dec_digits x c (by rw [show dec x = c :: r from h]; simp)
    constructor <;> (rintro rfl; revert this; decide)

/-! ## Written files -/

theorem fan_triangle (f : Tri Nat) : fan [f.a, f.b, f.c] = [f] := rfl

theorem flatMap_triangles {α : Type} (fs : List (Tri Nat)) (g : Tri Nat → List α) (h : List α → List (Tri Nat)) (hg : ∀ f ∈ fs, h (g f) = [f]) : (fs.map g).flatMap h = fs := by
  induction fs with
  | nil => rfl
  | cons f fs ih => rw [List.map_cons, List.flatMap_cons, hg f (by simp), ih fun f hf => hg f (by simp [hf])]; rfl

theorem textOf_append (a b : List (List Char)) : textOf (a ++ b) = textOf a ++ textOf b := by unfold textOf; rw [List.flatMap_append]
theorem textOf_map {α : Type} (xs : List α) (g : α → List Char) : textOf (xs.map g) = xs.flatMap fun x => g x ++ ['\n'] := by unfold textOf; rw [List.flatMap_map]

/-- An index as a reference. -/
def objRef (negative : Bool) (nv i : Nat) : Ref := ⟨if negative then -((nv : Int) - i) else (i : Int) + 1, []⟩

theorem objIndex_eq (negative : Bool) {nv i : Nat} (hnv : nv < 2 ^ 63) (hi : i < nv) : objIndex negative nv i = decInt (objRef negative nv i).v := by
  unfold objIndex objRef toSigned
  cases negative
  · rw [if_neg (by simp), if_neg (by simp), Nat.mod_eq_of_lt (by omega)]
    dsimp only
    unfold decInt
    rw [if_neg (by omega)]
    congr 1
  · rw [if_pos rfl, if_pos rfl, Int.emod_eq_of_lt (by omega) (by omega)]
    rw [show ((nv : Int) - i).toNat % 2 ^ 64 = nv - i by omega, if_pos (by omega)]
    dsimp only
    congr 1; omega

theorem objRef_valid (negative : Bool) {nv i : Nat} (hnv : nv < 2 ^ 63) (hi : i < nv) : (objRef negative nv i).Valid nv where
  ne := by unfold objRef; cases negative <;> simp <;> omega
  low := by unfold objRef; cases negative <;> simp <;> omega
  high := by unfold objRef; cases negative <;> simp <;> omega
  suffix_no_space := by intro c hc; cases hc
  suffix_no_digit := by intro c t h; cases h

theorem objRef_index (negative : Bool) {nv i : Nat} (hi : i < nv) : (objRef negative nv i).index nv = i := by
  unfold objRef Ref.index
  cases negative
  · show (if 0 < (i : Int) + 1 then ((i : Int) + 1 - 1).toNat else nv - ((i : Int) + 1).natAbs) = i
    rw [if_pos (by omega)]; omega
  · show (if 0 < -((nv : Int) - i) then (-((nv : Int) - i) - 1).toNat else nv - (-((nv : Int) - i)).natAbs) = i
    rw [if_neg (by omega)]; omega

/-- Every index is of a vertex. -/
def InRange (t : Soup P D) : Prop := ∀ f ∈ t.faces, f.a < t.points.length ∧ f.b < t.points.length ∧ f.c < t.points.length

theorem writeObj_text (N : Doubles F) (dbl : P → P3 F) (negative : Bool) (t : Soup P D) (hnv : t.points.length < 2 ^ 63) (ht : InRange t) :
    writeObj N dbl negative t = objText N (t.points.map dbl) (t.faces.map fun f => [objRef negative t.points.length f.a, objRef negative t.points.length f.b, objRef negative t.points.length f.c]) := by
  unfold writeObj objText
  rw [textOf_append, List.map_map, List.map_map, textOf_map, textOf_map]
  congr 1
  · congr 1
    funext p
    simp [objVertexLine, pointLine, pointText]
  · have key : ∀ fs : List (Tri Nat), (∀ f ∈ fs, f.a < t.points.length ∧ f.b < t.points.length ∧ f.c < t.points.length) →
        (fs.flatMap fun f => 'f' :: ' ' :: objIndex negative t.points.length f.a ++ ' ' :: objIndex negative t.points.length f.b ++ ' ' :: objIndex negative t.points.length f.c ++ ['\n']) =
        fs.flatMap fun f => (objFaceLine ∘ fun f : Tri Nat => [objRef negative t.points.length f.a, objRef negative t.points.length f.b, objRef negative t.points.length f.c]) f ++ ['\n'] := by
      intro fs
      induction fs with
      | nil => intro _; rfl
      | cons f fs ih =>
        intro h
        obtain ⟨ha, hb, hc⟩ := h f (by simp)
        rw [List.flatMap_cons, List.flatMap_cons, ih fun f hf => h f (by simp [hf]), objIndex_eq negative hnv ha, objIndex_eq negative hnv hb, objIndex_eq negative hnv hc]
        congr 1
        simp [objFaceLine, objRef]
    exact key t.faces ht

/-- **C44.** Reading a written OBJ file yields the same vertices, as doubles, and the same faces, whichever way indices are written. -/
theorem C44_round_trip {N : Doubles F} (hN : N.Lawful) (dbl : P → P3 F) (negative : Bool) (t : Soup P D) (hnv : t.points.length < 2 ^ 63) (ht : InRange t) {E : Type} (dflt : E) (target : Soup (P3 F) E) :
    ∃ k, readObj N dflt (of (writeObj N dbl negative t)) target = (true, ⟨t.points.map dbl, t.faces, List.replicate t.faces.length dflt⟩, k) := by
  have hl : (t.points.map dbl).length = t.points.length := List.length_map ..
  rw [writeObj_text N dbl negative t hnv ht]
  obtain ⟨k, hk⟩ := readObj_text hN dflt (t.points.map dbl) (by omega) (t.faces.map fun f => [objRef negative t.points.length f.a, objRef negative t.points.length f.b, objRef negative t.points.length f.c]) (by
    intro f hf r hr
    obtain ⟨f, hf', rfl⟩ := List.mem_map.1 hf
    obtain ⟨ha, hb, hc⟩ := ht f hf'
    simp only [List.mem_cons, List.not_mem_nil, or_false] at hr
    rw [hl]
    rcases hr with rfl | rfl | rfl
    · exact objRef_valid negative hnv ha
    · exact objRef_valid negative hnv hb
    · exact objRef_valid negative hnv hc) target
  refine ⟨k, ?_⟩
  rw [hk, hl, flatMap_triangles]
  intro f hf
  obtain ⟨ha, hb, hc⟩ := ht f hf
  simp only [List.map_cons, List.map_nil, objRef_index negative ha, objRef_index negative hb, objRef_index negative hc, fan_triangle]

/-- The polygons of a soup. -/
def triPolygon (f : Tri Nat) : Polygon := ⟨[f.a, f.b, f.c], []⟩

theorem triPolygon_valid {f : Tri Nat} (h : f.a < 2 ^ 64 ∧ f.b < 2 ^ 64 ∧ f.c < 2 ^ 64) : (triPolygon f).Valid where
  count := by show 3 < 2 ^ 64; decide
  index := by
    intro v hv
    simp only [triPolygon, List.mem_cons, List.not_mem_nil, or_false] at hv
    rcases hv with rfl | rfl | rfl
    · exact h.1
    · exact h.2.1
    · exact h.2.2
  extra_space := by intro c t h; cases h
  extra_line := by intro h; cases h

theorem faceText_eq (f : Tri Nat) : faceText f = polygonLine (triPolygon f) ++ ['\n'] := by
  unfold faceText polygonLine triPolygon
  simp only [List.length_cons, List.length_nil, show dec (0 + 1 + 1 + 1) = ['3'] by decide]
  simp

theorem pointText_eq (N : Doubles F) (p : P3 F) : pointText N p = pointLine N p ++ ['\n'] := by
  unfold pointText pointLine; simp

theorem writeOff_text (N : Doubles F) (dbl : P → P3 F) (t : Soup P D) : writeOff N dbl t = offText N (t.points.map dbl) (t.faces.map triPolygon) := by
  unfold writeOff offText
  rw [textOf_append, textOf_append, List.map_map, List.map_map, textOf_map, textOf_map, List.length_map, List.length_map]
  congr 1
  · congr 1
    · simp [textOf]
    · congr 1; funext p; exact pointText_eq N _
  · congr 1; funext f; exact faceText_eq f

theorem writePly_text (N : Doubles F) (dbl : P → P3 F) (t : Soup P D) : writePly N dbl t = plyText N (t.points.map dbl) (t.faces.map triPolygon) := by
  unfold writePly plyText
  rw [textOf_append, textOf_append, List.map_map, List.map_map, textOf_map, textOf_map, List.length_map, List.length_map]
  congr 1
  · congr 1
    · simp [textOf]
    · congr 1; funext p; exact pointText_eq N _
  · congr 1; funext f; exact faceText_eq f

/-- Counts and indices have 64 bits. -/
def Bits64 (t : Soup P D) : Prop := t.points.length < 2 ^ 64 ∧ t.faces.length < 2 ^ 64 ∧ ∀ f ∈ t.faces, f.a < 2 ^ 64 ∧ f.b < 2 ^ 64 ∧ f.c < 2 ^ 64

/-- **C45.** Reading a written OFF file yields the same vertices, as doubles, and the same faces, for every soup (also without faces). -/
theorem C45_round_trip {N : Doubles F} (hN : N.Lawful) (dbl : P → P3 F) (t : Soup P D) (ht : Bits64 t) {E : Type} (dflt : E) (target : Soup (P3 F) E) :
    ∃ k, readOff N dflt (of (writeOff N dbl t)) target = (true, ⟨t.points.map dbl, t.faces, List.replicate t.faces.length dflt⟩, k) := by
  rw [writeOff_text]
  obtain ⟨k, hk⟩ := readOff_text hN dflt (t.points.map dbl) (by rw [List.length_map]; exact ht.1) (t.faces.map triPolygon) (by rw [List.length_map]; exact ht.2.1) (by
    intro f hf
    obtain ⟨f, hf', rfl⟩ := List.mem_map.1 hf
    exact triPolygon_valid (ht.2.2 f hf')) target
  refine ⟨k, ?_⟩
  rw [hk, List.flatMap_map, show (fun f => fan (triPolygon f).vertices) = fun f => [f] from rfl, List.flatMap_singleton']

/-- **C46.** Reading a written PLY file yields the same vertices, as doubles, and the same faces. -/
theorem C46_round_trip {N : Doubles F} (hN : N.Lawful) (dbl : P → P3 F) (t : Soup P D) (ht : Bits64 t) {E : Type} (dflt : E) (target : Soup (P3 F) E) :
    ∃ k, readPly N dflt (of (writePly N dbl t)) target = (true, ⟨t.points.map dbl, t.faces, List.replicate t.faces.length dflt⟩, k) := by
  rw [writePly_text]
  obtain ⟨k, hk⟩ := readPly_text hN dflt (t.points.map dbl) (by rw [List.length_map]; exact ht.1) (t.faces.map triPolygon) (by rw [List.length_map]; exact ht.2.1) (by
    intro f hf
    obtain ⟨f, hf', rfl⟩ := List.mem_map.1 hf
    exact triPolygon_valid (ht.2.2 f hf')) target
  refine ⟨k, ?_⟩
  rw [hk, List.flatMap_map, show (fun f => fan (triPolygon f).vertices) = fun f => [f] from rfl, List.flatMap_singleton']

/-- A soup with two triangles. -/
def square : Soup (P3 Nat) Unit := ⟨[(0, 0, 0), (1, 0, 0), (1, 1, 0), (0, 1, 12)], [⟨0, 1, 2⟩, ⟨0, 2, 3⟩], [(), ()]⟩

example : writeObj natDoubles id false square = "v 0 0 0\nv 1 0 0\nv 1 1 0\nv 0 1 12\nf 1 2 3\nf 1 3 4\n".toList := by decide +kernel
example : writeObj natDoubles id true square = "v 0 0 0\nv 1 0 0\nv 1 1 0\nv 0 1 12\nf -4 -3 -2\nf -4 -2 -1\n".toList := by decide +kernel
example : writeOff natDoubles id square = "OFF\n4 2 0\n0 0 0\n1 0 0\n1 1 0\n0 1 12\n3 0 1 2\n3 0 2 3\n".toList := by decide +kernel
example (b : Bool) : ∃ k, readObj natDoubles () (of (writeObj natDoubles id b square)) Soup.empty = (true, square, k) :=
  C44_round_trip natDoubles_lawful id b square (by decide) (by unfold InRange; decide) () _
example : ∃ k, readOff natDoubles () (of (writeOff natDoubles id square)) Soup.empty = (true, square, k) :=
  C45_round_trip natDoubles_lawful id square ⟨by decide, by decide, by decide⟩ () _
example : ∃ k, readPly natDoubles () (of (writePly natDoubles id square)) Soup.empty = (true, square, k) :=
  C46_round_trip natDoubles_lawful id square ⟨by decide, by decide, by decide⟩ () _

/-! ## Failed reads -/

/-- **C47, OBJ.** -/
theorem C47_obj (N : Doubles F) (dflt : D) (is : IS) (target : Soup (P3 F) D) (h : (readObj N dflt is target).1 = false) : (readObj N dflt is target).2.1 = target := by
  unfold readObj at h ⊢
  split
  · rfl
  · next hf =>
    rw [if_neg hf] at h
    dsimp only at h ⊢
    split
    · next ho => rw [if_pos ho] at h; cases h
    · rfl

/-- **C47, OFF.** -/
theorem C47_off (N : Doubles F) (dflt : D) (is : IS) (target : Soup (P3 F) D) (h : (readOff N dflt is target).1 = false) : (readOff N dflt is target).2.1 = target := by
  unfold readOff at h ⊢
  split
  · rfl
  · next hf =>
    rw [if_neg hf] at h
    dsimp only at h ⊢
    split
    · rfl
    · next ho =>
      rw [if_neg ho] at h
      split
      · rfl
      · next hd => rw [if_neg hd] at h; cases h

/-- **C47, PLY.** -/
theorem C47_ply (N : Doubles F) (dflt : D) (is : IS) (target : Soup (P3 F) D) (h : (readPly N dflt is target).1 = false) : (readPly N dflt is target).2.1 = target := by
  unfold readPly at h ⊢
  split
  · rfl
  · next hf =>
    rw [if_neg hf] at h
    split
    · rfl
    · next hh =>
      rw [hh] at h
      dsimp only at h
      split
      · rfl
      · next hp =>
        rw [hp] at h
        dsimp only at h ⊢
        split
        · rfl
        · next ho =>
          rw [if_neg ho] at h
          split
          · rfl
          · next hd => rw [if_neg hd] at h; cases h

/-- A vertex was already read when the reader fails. -/
example : readObj natDoubles () (of "v 1 2 3\nv 1 x 3\n".toList) square = (false, square, 1) := by decide +kernel
example : (readOff natDoubles () (of "OFF\n2 0 0\n1 2 3\n".toList) square).1 = false := by decide +kernel

/-! ## Polygons -/

/-- The fan of a polygon with `n` vertices has `n - 2` triangles, the first vertex and two that follow each other. -/
theorem fan_length (vs : List Nat) : (fan vs).length = vs.length - 2 := by
  rw [← fanFaces_eq]; unfold fanFaces
  split
  · simp
  · simp; omega

theorem fan_getElem (vs : List Nat) (i : Nat) (h : i < vs.length - 2) : (fan vs)[i]? = some ⟨vs[0]'(by omega), vs[i + 1]'(by omega), vs[i + 2]'(by omega)⟩ := by
  rw [← fanFaces_eq]; unfold fanFaces
  rw [dif_pos (by omega), List.getElem?_eq_getElem (by simpa using h)]
  simp

/-- **C48, OBJ.** Faces with any number of references, of either sign and with texture and normal, become fans in order. -/
theorem C48_obj {N : Doubles F} (hN : N.Lawful) (dflt : D) (ps : List (P3 F)) (hps : ps.length < 2 ^ 63) (fs : List (List Ref)) (h : ∀ f ∈ fs, ∀ r ∈ f, r.Valid ps.length) (target : Soup (P3 F) D) :
    ∃ r k, readObj N dflt (of (objText N ps fs)) target = (true, r, k) ∧ r.points = ps ∧ r.faces = fs.flatMap (fun f => fan (f.map (Ref.index ps.length))) ∧
      ∀ vs, (fan vs).length = vs.length - 2 ∧ ∀ i (hi : i < vs.length - 2), (fan vs)[i]? = some ⟨vs[0]'(by omega), vs[i + 1]'(by omega), vs[i + 2]'(by omega)⟩ := by
  obtain ⟨k, hk⟩ := readObj_text hN dflt ps hps fs h target
  exact ⟨_, k, hk, rfl, rfl, fun vs => ⟨fan_length vs, fan_getElem vs⟩⟩

/-- **C48, OFF.** -/
theorem C48_off {N : Doubles F} (hN : N.Lawful) (dflt : D) (ps : List (P3 F)) (hps : ps.length < 2 ^ 64) (fs : List Polygon) (hfs : fs.length < 2 ^ 64) (h : ∀ f ∈ fs, f.Valid) (target : Soup (P3 F) D) :
    ∃ r k, readOff N dflt (of (offText N ps fs)) target = (true, r, k) ∧ r.points = ps ∧ r.faces = fs.flatMap (fun f => fan f.vertices) ∧
      ∀ vs, (fan vs).length = vs.length - 2 ∧ ∀ i (hi : i < vs.length - 2), (fan vs)[i]? = some ⟨vs[0]'(by omega), vs[i + 1]'(by omega), vs[i + 2]'(by omega)⟩ := by
  obtain ⟨k, hk⟩ := readOff_text hN dflt ps hps fs hfs h target
  exact ⟨_, k, hk, rfl, rfl, fun vs => ⟨fan_length vs, fan_getElem vs⟩⟩

/-- **C48, PLY.** -/
theorem C48_ply {N : Doubles F} (hN : N.Lawful) (dflt : D) (ps : List (P3 F)) (hps : ps.length < 2 ^ 64) (fs : List Polygon) (hfs : fs.length < 2 ^ 64) (h : ∀ f ∈ fs, f.Valid) (target : Soup (P3 F) D) :
    ∃ r k, readPly N dflt (of (plyText N ps fs)) target = (true, r, k) ∧ r.points = ps ∧ r.faces = fs.flatMap (fun f => fan f.vertices) ∧
      ∀ vs, (fan vs).length = vs.length - 2 ∧ ∀ i (hi : i < vs.length - 2), (fan vs)[i]? = some ⟨vs[0]'(by omega), vs[i + 1]'(by omega), vs[i + 2]'(by omega)⟩ := by
  obtain ⟨k, hk⟩ := readPly_text hN dflt ps hps fs hfs h target
  exact ⟨_, k, hk, rfl, rfl, fun vs => ⟨fan_length vs, fan_getElem vs⟩⟩

/-- A quadrilateral with texture coordinates, a face with two references, and negative references. -/
example : objText natDoubles [(0, 0, 0), (1, 0, 0), (1, 1, 0), (0, 1, 0)] [[⟨1, "/5".toList⟩, ⟨2, "//7".toList⟩, ⟨-2, []⟩, ⟨4, []⟩], [⟨1, []⟩, ⟨2, []⟩]] =
    "v 0 0 0\nv 1 0 0\nv 1 1 0\nv 0 1 0\nf 1/5 2//7 -2 4\nf 1 2\n".toList := by decide +kernel
example : readObj natDoubles () (of "v 0 0 0\nv 1 0 0\nv 1 1 0\nv 0 1 0\nf 1/5 2//7 -2 4\nf 1 2\n".toList) Soup.empty =
    (true, ⟨[(0, 0, 0), (1, 0, 0), (1, 1, 0), (0, 1, 0)], [⟨0, 1, 2⟩, ⟨0, 2, 3⟩], [(), ()]⟩, 10) := by decide +kernel
example : fan [5, 6, 7, 8, 9] = [⟨5, 6, 7⟩, ⟨5, 7, 8⟩, ⟨5, 8, 9⟩] ∧ fan [5, 6] = [] := by decide

/-! ## Comments and blank lines -/

/-- **C49, OBJ.** Texts with the same significant lines are read alike. -/
theorem C49_obj_lines (N : Doubles F) (dflt : D) (t t' : List Char) (h : (lines (of t)).filter significant = (lines (of t')).filter significant) (target : Soup (P3 F) D) :
    readObj N dflt (of t) target = readObj N dflt (of t') target := by
  unfold readObj
  rw [if_neg (by simp [of]), if_neg (by simp [of]), ← objLoop_significant, h, objLoop_significant]

/-- **C49, OFF.** Texts with the same significant lines are read alike. -/
theorem C49_off_lines (N : Doubles F) (dflt : D) (t t' : List Char) (h : (lines (of t)).filter significant = (lines (of t')).filter significant) (target : Soup (P3 F) D) :
    readOff N dflt (of t) target = readOff N dflt (of t') target := by
  unfold readOff
  rw [if_neg (by simp [of]), if_neg (by simp [of]), ← offLoop_significant, h, offLoop_significant]

/-- A line of white space, or a comment after white space. -/
def CommentOrBlank (c : List Char) : Prop := '\n' ∉ c ∧ ((∀ x ∈ c, isSpace x = true) ∨ ∃ w r, (∀ x ∈ w, isSpace x = true) ∧ c = w ++ '#' :: r)

/-- Text with one such line inserted in front of a line. -/
inductive Inserted : List Char → List Char → Prop
  | refl (t) : Inserted t t
  | front (c t t') : CommentOrBlank c → Inserted t t' → Inserted t (c ++ '\n' :: t')
  | line (l t t') : '\n' ∉ l → Inserted t t' → Inserted (l ++ '\n' :: t) (l ++ '\n' :: t')

theorem inserted_lines {t t' : List Char} (h : Inserted t t') : (lines (of t)).filter significant = (lines (of t')).filter significant := by
  induction h with
  | refl => rfl
  | front c t t' hc _ ih => rw [lines_cons hc.1, List.filter_cons_of_neg (by rw [insignificant_not hc.2]; simp)]; exact ih
  | line l t t' hl _ ih => rw [lines_cons hl, lines_cons hl, List.filter_cons, List.filter_cons, ih]

/-- **C49, OBJ.** Inserting comments and blank lines makes no difference. -/
theorem C49_obj (N : Doubles F) (dflt : D) {t t' : List Char} (h : Inserted t t') (target : Soup (P3 F) D) : readObj N dflt (of t') target = readObj N dflt (of t) target :=
  C49_obj_lines N dflt t' t (inserted_lines h).symm target

/-- **C49, OFF.** Inserting comments and blank lines makes no difference. -/
theorem C49_off (N : Doubles F) (dflt : D) {t t' : List Char} (h : Inserted t t') (target : Soup (P3 F) D) : readOff N dflt (of t') target = readOff N dflt (of t) target :=
  C49_off_lines N dflt t' t (inserted_lines h).symm target

example : Inserted "OFF\n0 0 0\n".toList "OFF\n \t# no counts yet\n0 0 0\n\n".toList :=
  .line "OFF".toList _ _ (by decide) (.front " \t# no counts yet".toList _ _ ⟨by decide, .inr ⟨" \t".toList, " no counts yet".toList, by decide, by decide⟩⟩
    (.line "0 0 0".toList _ _ (by decide) (.front [] _ _ ⟨by decide, .inl (by decide)⟩ (.refl []))))
/-- Other lines do make a difference. -/
example : (readOff natDoubles () (of "OFF\n0 0 0\n".toList) square).1 = true ∧ (readOff natDoubles () (of "OFF\n0 0 0\n1\n".toList) square).1 = false := by decide +kernel

/-! ## Counts -/

/-- **C50, OFF.** After a successful read, the significant lines are the signature, a line with two counts, as many lines with points as the first, as many with polygons as the second, and nothing else. -/
theorem C50_off (N : Doubles F) (dflt : D) (t : List Char) (target r : Soup (P3 F) D) (k : Nat) (h : readOff N dflt (of t) target = (true, r, k)) :
    ∃ sg l nv nf vl fl ps polys, (lines (of t)).filter significant = sg :: l :: (vl ++ fl) ∧ CountsLine l nv nf ∧ vl.length = nv ∧ fl.length = nf ∧
      List.Forall₂ (PointLine N) vl ps ∧ List.Forall₂ PolygonLine fl polys ∧ r.points = ps ∧ r.faces = polys.flatMap fan := by
  unfold readOff at h
  rw [if_neg (by simp [of]), ← offLoop_significant] at h
  have hs : ∀ l ∈ (lines (of t)).filter significant, significant l = true := fun l hl => (List.mem_filter.1 hl).2
  generalize (lines (of t)).filter significant = ls at h hs ⊢
  dsimp only at h
  split at h
  · cases h
  · next ho =>
    split at h
    · cases h
    · next hd =>
      have ho' : (offLoop N dflt ls ⟨.signature, 0, 0, Soup.empty, 0⟩).1 = true := by simpa using ho
      have hd' : (offLoop N dflt ls ⟨.signature, 0, 0, Soup.empty, 0⟩).2.state = .done := by simpa using hd
      have hr : (offLoop N dflt ls ⟨.signature, 0, 0, Soup.empty, 0⟩).2.soup = r := by cases h; rfl
      generalize hz : offLoop N dflt ls ⟨.signature, 0, 0, Soup.empty, 0⟩ = z at ho' hd' hr
      obtain ⟨o, a'⟩ := z
      dsimp only at ho' hd' hr
      subst ho'
      cases ls with
      | nil => cases hz; cases hd'
      | cons sg ls =>
        obtain ⟨b, h1, h2⟩ := offLoop_step hz
        rcases offLine_significant N dflt (hs sg (by simp)) _ h1 with ⟨-, rfl⟩ | ⟨h3, -⟩ | ⟨h3, -⟩ | ⟨h3, -⟩
        · cases ls with
          | nil => cases h2; cases hd'
          | cons l ls =>
            obtain ⟨b, h3, h4⟩ := offLoop_step h2
            rcases offLine_significant N dflt (hs l (by simp)) _ h3 with ⟨h5, -⟩ | ⟨-, nv, nf, h5, rfl⟩ | ⟨h5, -⟩ | ⟨h5, -⟩
            · cases h5
            · obtain ⟨vl, fl, ps, polys, i1, i2, i3, i4, i5, i6⟩ := offLoop_vertices_inv N dflt ls (fun l hl => hs l (by simp [hl])) _ a' h4 hd' rfl
              refine ⟨sg, l, nv, nf, vl, fl, ps, polys, by rw [i1], h5, i2, i3, i4, i5, ?_, ?_⟩
              · rw [← hr, i6]; rfl
              · rw [← hr, i6]; rfl
            · cases h5
            · cases h5
        · cases h3
        · cases h3
        · cases h3

/-- **C50, PLY.** After a successful read, the body has parts with as many lines as declared for each element, and nothing else; the lines of the vertex element give the points, those of the face element the polygons. -/
theorem C50_ply (N : Doubles F) (dflt : D) (t : List Char) (target r : Soup (P3 F) D) (k : Nat) (h : readPly N dflt (of t) target = (true, r, k)) :
    ∃ els body parts q v f vl fl ps polys, plyHeader (lines (of t)) .signature [] = some (els, body) ∧ body = parts.flatten ∧ List.Forall₂ (fun e part => part.length = e.count) els parts ∧
      plyPlan els = some q ∧ els[q.ve]? = some v ∧ v.name = "vertex".toList ∧ parts[q.ve]? = some vl ∧ els[q.fe]? = some f ∧ f.name = "face".toList ∧ parts[q.fe]? = some fl ∧
      List.Forall₂ (PlyVertexLine N q v) vl ps ∧ List.Forall₂ (PlyFaceLine q f) fl polys ∧ r.points = ps ∧ r.faces = polys.flatMap fan ∧ r.points.length = v.count := by
  unfold readPly at h
  rw [if_neg (by simp [of])] at h
  split at h
  · cases h
  · next els ls hh =>
    split at h
    · cases h
    · next q hq =>
      dsimp only at h
      split at h
      · cases h
      · next ho =>
        split at h
        · cases h
        · next hd =>
          obtain ⟨v, f, v1, v2, f1, f2, -, hne⟩ := plyPlan_spec hq
          generalize hz : plyLoop N dflt q ls (advance (number 0 els)) ⟨Soup.empty, 0⟩ = z at h ho hd
          obtain ⟨o, todo, a'⟩ := z
          dsimp only at h ho hd
          have ho' : o = true := by simpa using ho
          have hd' : todo = [] := by simpa using hd
          subst ho' hd'
          obtain ⟨parts, i1, i2, ps, polys, i3, i4, i5, -, -⟩ := plyLoop_elements N dflt q hne els 0 ls ⟨Soup.empty, 0⟩ a' hz
          have hr : r = a'.soup := by cases h; rfl
          have hget : ∀ {j : Nat} {e : Elem}, els[j]? = some e → ∃ c, parts[j]? = some c ∧ c.length = e.count := by
            intro j e he
            clear i1 i3 i4 i5 hz v1 f1 hh hq
            induction i2 generalizing j with
            | nil => cases he
            | cons hab _ ih =>
              cases j with
              | zero => cases he; exact ⟨_, rfl, hab⟩
              | succ j => exact ih he
          obtain ⟨vl, w1, w2⟩ := hget v1
          obtain ⟨fl, g1, -⟩ := hget f1
          have hv := i4 q.ve v vl (by omega) v1 w1
          have hf := i5 q.fe f fl (by omega) f1 g1
          have hp : r.points = ps := by rw [hr, i3]; rfl
          refine ⟨els, ls, parts, q, v, f, vl, fl, ps, polys, hh, i1, i2, hq, v1, v2, w1, f1, f2, g1, hv, hf, hp, ?_, ?_⟩
          · rw [hr, i3]; rfl
          · rw [hp, ← hv.length_eq, w2]

example : (readOff natDoubles () (of "OFF\n3 1 0\n0 0 0\n1 0 0\n0 1 0\n3 0 1 2\n".toList) Soup.empty).1 = true := by decide +kernel
example : (readOff natDoubles () (of "OFF\n3 1 0\n0 0 0\n1 0 0\n3 0 1 2\n".toList) Soup.empty).1 = false := by decide +kernel
example : (readOff natDoubles () (of "OFF\n3 1 0\n0 0 0\n1 0 0\n0 1 0\n3 0 1 2\n3 0 1 2\n".toList) Soup.empty).1 = false := by decide +kernel

/-! ## Indices -/

/-- **C51** is false for OBJ: a face of vertices that do not exist is read. -/
theorem C51_obj_false : ∃ (t : List Char) (r : Soup (P3 Nat) Unit) (k : Nat), readObj natDoubles () (of t) Soup.empty = (true, r, k) ∧ ¬ InRange r :=
  ⟨"f 1 2 3\n".toList, ⟨[], [⟨0, 1, 2⟩], [()]⟩, 3, by decide +kernel, fun h => by have := (h ⟨0, 1, 2⟩ (by simp)).1; cases this⟩

/-- **C51** is false for OFF. -/
theorem C51_off_false : ∃ (t : List Char) (r : Soup (P3 Nat) Unit) (k : Nat), readOff natDoubles () (of t) Soup.empty = (true, r, k) ∧ ¬ InRange r :=
  ⟨"OFF\n0 1 0\n3 0 1 2\n".toList, ⟨[], [⟨0, 1, 2⟩], [()]⟩, 3, by decide +kernel, fun h => by have := (h ⟨0, 1, 2⟩ (by simp)).1; cases this⟩

/-- A PLY text with a face of vertices that do not exist. -/
def badPly : List Char :=
  ("ply\nformat ascii 1.0\nelement vertex 0\nproperty float x\nproperty float y\nproperty float z\nelement face 1\nproperty list uchar int vertex_index\nend_header\n3 0 1 2\n").toList

/-- **C51** is false for PLY. -/
theorem C51_ply_false : ∃ (t : List Char) (r : Soup (P3 Nat) Unit) (k : Nat), readPly natDoubles () (of t) Soup.empty = (true, r, k) ∧ ¬ InRange r :=
  ⟨badPly, ⟨[], [⟨0, 1, 2⟩], [()]⟩, 3, by decide +kernel, fun h => by have := (h ⟨0, 1, 2⟩ (by simp)).1; cases this⟩

/-- **C51, for texts with valid polygons.** Reading texts with vertices and polygons of these vertices yields valid faces, in all formats.  Missing: texts with other indices, where the claim is false
(`C51_obj_false`, `C51_off_false`, `C51_ply_false`). -/
theorem C51_valid_partial {N : Doubles F} (hN : N.Lawful) (dflt : D) (ps : List (P3 F)) (hps : ps.length < 2 ^ 64) (fs : List Polygon) (hfs : fs.length < 2 ^ 64) (h : ∀ f ∈ fs, f.Valid)
    (hv : ∀ f ∈ fs, ∀ v ∈ f.vertices, v < ps.length) (target : Soup (P3 F) D) :
    InRange (readOff N dflt (of (offText N ps fs)) target).2.1 ∧ InRange (readPly N dflt (of (plyText N ps fs)) target).2.1 := by
  have key : ∀ f ∈ fs.flatMap (fun f => fan f.vertices), f.a < ps.length ∧ f.b < ps.length ∧ f.c < ps.length := by
    intro f hf
    obtain ⟨p, hp, hf⟩ := List.mem_flatMap.1 hf
    cases hvs : p.vertices with
    | nil => rw [hvs] at hf; cases hf
    | cons a r =>
      rw [hvs] at hf
      obtain ⟨e, he, rfl⟩ := List.mem_map.1 hf
      obtain ⟨h1, h2⟩ := List.of_mem_zip he
      exact ⟨hv p hp a (by simp [hvs]), hv p hp e.1 (by simp [hvs, h1]), hv p hp e.2 (by rw [hvs]; exact List.mem_cons_of_mem _ (List.mem_of_mem_tail h2))⟩
  obtain ⟨k, hk⟩ := readOff_text hN dflt ps hps fs hfs h target
  obtain ⟨k', hk'⟩ := readPly_text hN dflt ps hps fs hfs h target
  rw [hk, hk']
  exact ⟨key, key⟩

/-- **C51, for written files.** Reading a written file of a valid soup yields valid faces, in all formats. -/
theorem C51_written_partial {N : Doubles F} (hN : N.Lawful) (dbl : P → P3 F) (negative : Bool) (t : Soup P D) (hnv : t.points.length < 2 ^ 63) (hnf : t.faces.length < 2 ^ 64) (ht : InRange t) {E : Type} (dflt : E) (target : Soup (P3 F) E) :
    InRange (readObj N dflt (of (writeObj N dbl negative t)) target).2.1 ∧ InRange (readOff N dflt (of (writeOff N dbl t)) target).2.1 ∧ InRange (readPly N dflt (of (writePly N dbl t)) target).2.1 := by
  have hb : Bits64 t := ⟨by omega, hnf, fun f hf => by have := ht f hf; omega⟩
  have key : InRange (⟨t.points.map dbl, t.faces, List.replicate t.faces.length dflt⟩ : Soup (P3 F) E) := fun f hf => by
    have := ht f hf
    simpa using this
  obtain ⟨k1, h1⟩ := C44_round_trip hN dbl negative t hnv ht dflt target
  obtain ⟨k2, h2⟩ := C45_round_trip hN dbl t hb dflt target
  obtain ⟨k3, h3⟩ := C46_round_trip hN dbl t hb dflt target
  rw [h1, h2, h3]
  exact ⟨key, key, key⟩

/-! ## Work -/

/-- **C52, OBJ.** Reading stores at most as many vertices and indices as the text has characters, whether it succeeds or not. -/
theorem C52_obj (N : Doubles F) (dflt : D) (t : List Char) (target : Soup (P3 F) D) : (readObj N dflt (of t) target).2.2 ≤ t.length := by
  unfold readObj
  rw [if_neg (by simp [of])]
  have h := objLoop_stored N dflt (lines (of t)) ⟨Soup.empty, 0⟩
  have h' := lines_length t.length t (Nat.le_refl _)
  dsimp only
  split <;> (dsimp only at h ⊢; omega)

/-- **C52, successful reads of OFF and PLY.**  Missing: reads that fail, where the claim is false (`C52_off_false`, `C52_ply_false`). -/
theorem C52_success_partial (N : Doubles F) (dflt : D) (t : List Char) (target : Soup (P3 F) D) :
    ((readOff N dflt (of t) target).1 = true → (readOff N dflt (of t) target).2.2 ≤ t.length) ∧ ((readPly N dflt (of t) target).1 = true → (readPly N dflt (of t) target).2.2 ≤ t.length) := by
  have h' := lines_length t.length t (Nat.le_refl _)
  constructor
  · intro h
    unfold readOff at h ⊢
    rw [if_neg (by simp [of])] at h ⊢
    dsimp only at h ⊢
    split
    · next ho => rw [if_pos ho] at h; cases h
    · next ho =>
      have h1 := offLoop_stored N dflt (lines (of t)) ⟨.signature, 0, 0, Soup.empty, 0⟩ (by simpa using ho)
      dsimp only at h1
      split <;> (dsimp only; omega)
  · intro h
    unfold readPly at h ⊢
    rw [if_neg (by simp [of])] at h ⊢
    split
    · next hh => rw [hh] at h; cases h
    · next els ls hh =>
      rw [hh] at h
      dsimp only at h
      split
      · next hp => rw [hp] at h; cases h
      · next q hq =>
        rw [hq] at h
        dsimp only at h ⊢
        obtain ⟨v, f, v1, -, -, -, hpr, -⟩ := plyPlan_spec hq
        have hsub : ∀ (ls0 : List (List Char)) (st : PlyState) (es : List Elem) (els : List Elem) (ls : List (List Char)), plyHeader ls0 st es = some (els, ls) → (ls.map List.length).sum ≤ (ls0.map List.length).sum := by
          intro ls0
          induction ls0 with
          | nil => intro st es els ls h; cases h
          | cons l ls0 ih =>
            intro st es els ls h
            rw [plyHeader] at h
            split at h
            · cases h
            · split at h
              · cases h; simp
              · have := ih _ _ _ _ h
                simp only [List.map_cons, List.sum_cons]; omega
        have h2 := hsub _ _ _ _ _ hh
        split
        · next ho => rw [if_pos ho] at h; cases h
        · next ho =>
          have h1 := plyLoop_stored N dflt q ls (advance (number 0 els)) (by
            intro e he hi
            obtain ⟨j, j1, j2⟩ := number_mem (advance_mem he)
            rw [Nat.zero_add] at j1
            rw [← j1, hi, v1] at j2
            cases j2; exact hpr) ⟨Soup.empty, 0⟩ (by simpa using ho)
          have h3 : (plyLoop N dflt q ls (advance (number 0 els)) ⟨Soup.empty, 0⟩).2.2.stored ≤ t.length := by dsimp only at h1; omega
          split <;> exact h3

/-- **C52** is false for OFF: the number of vertices of a face is not compared with what the line holds, and the reader goes on although the stream has failed. -/
theorem C52_off_false : ∃ t : List Char, t.length = 20 ∧ (readOff natDoubles () (of t) square).2.2 = 999 := ⟨"OFF\n0 1 0\n999 0 0 0\n".toList, by decide, by decide +kernel⟩

/-- **C52** is false for PLY. -/
theorem C52_ply_false : ∃ t : List Char, t.length < 200 ∧ (readPly natDoubles () (of t) square).2.2 = 999 :=
  ⟨("ply\nformat ascii 1.0\nelement vertex 0\nproperty float x\nproperty float y\nproperty float z\nelement face 1\nproperty list uchar int vertex_index\nend_header\n999\n").toList, by decide +kernel, by decide +kernel⟩

end Kigumi.Text
