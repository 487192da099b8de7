import Verif.Props.MeshFile

/-!
# C94: written mesh files are files of their formats

`C44`–`C46` say that the readers of the library understand what its writers write. Here the meaning of the files is that of `Spec/MeshFile` and `Spec/PlyFile`, which does not refer to the readers.
-/
namespace Kigumi.Props
open Kigumi Kigumi.Text IS Ply Mesh

variable {F P D : Type}

theorem isNat_dec {n : Nat} (h : n < 2 ^ 64) : IsNat (dec n) n := ⟨h, dec n, .inl rfl, dec_ne n, dec_digits n, by rw [digitsValue_eq, decVal_dec]⟩

theorem isReal_fmt {N : Doubles F} (hN : N.Lawful) (x : F) : IsReal N (N.fmt x) x := .inr ⟨fun r h => (hN.head x _ _ h).1 rfl, hN.parse_fmt x⟩

theorem words_last {t : List Char} (ht : Tok t) : words t = [t] := by
  have := words_tok ht stop_nil
  rw [List.append_nil] at this
  exact this

theorem words_next {t : List Char} (ht : Tok t) (r : List Char) : words (t ++ ' ' :: r) = t :: words r := by
  rw [words_tok ht (fun c r' h => by injection h with h _; subst h; rfl), words_space rfl]

theorem words_point {N : Doubles F} (hN : N.Lawful) (p : P3 F) : words (pointLine N p) = [N.fmt p.1, N.fmt p.2.1, N.fmt p.2.2] := by
  unfold pointLine
  rw [words_next (hN.tok _), words_next (hN.tok _), words_last (hN.tok _)]

theorem words_flat {α : Type} (g : α → List Char) (hg : ∀ a, Tok (g a)) (l : List α) : words (l.flatMap fun a => ' ' :: g a) = l.map g ∧ Stop (l.flatMap fun a => ' ' :: g a) := by
  induction l with
  | nil => exact ⟨rfl, stop_nil⟩
  | cons a l ih =>
    refine ⟨?_, fun c r' h => by injection h with h _; subst h; rfl⟩
    rw [List.flatMap_cons, List.cons_append, words_space rfl, words_tok (hg a) ih.2, ih.1, List.map_cons]

theorem words_polygon (f : Tri Nat) : words (polygonLine (triPolygon f)) = ["3".toList, dec f.a, dec f.b, dec f.c] := by
  unfold polygonLine triPolygon
  dsimp only
  rw [List.append_nil, words_tok (dec_tok _) (words_flat dec dec_tok _).2, (words_flat dec dec_tok _).1]
  rfl

theorem significant_tok {t : List Char} (ht : Tok t) (hh : ∀ c r, t = c :: r → c ≠ '#') (r : List Char) : significant (t ++ r) = true := by
  cases t with
  | nil => exact absurd rfl ht.1
  | cons c t =>
    unfold significant
    rw [List.cons_append, List.dropWhile_cons, if_neg (by simp [ht.2 c (by simp)])]
    simpa using hh c t rfl

theorem digit_hash (n : Nat) : ∀ c r, dec n = c :: r → c ≠ '#' := by
  rintro c r h rfl
  exact absurd (dec_digits n '#' (by rw [h]; simp)) (by decide)

theorem no_newline {t : List Char} (ht : Tok t) : '\n' ∉ t := fun h => absurd (ht.2 _ h) (by decide)

theorem point_line {N : Doubles F} (hN : N.Lawful) (p : P3 F) : '\n' ∉ pointLine N p ∧ significant (pointLine N p) = true := by
  refine ⟨?_, significant_tok (hN.tok _) (fun c r h => (hN.head _ c r h).2) _⟩
  unfold pointLine
  simp only [List.mem_append, List.mem_cons, not_or]
  exact ⟨no_newline (hN.tok _), by decide, no_newline (hN.tok _), by decide, no_newline (hN.tok _)⟩

theorem polygon_line (f : Tri Nat) : '\n' ∉ polygonLine (triPolygon f) ∧ significant (polygonLine (triPolygon f)) = true := by
  refine ⟨?_, significant_tok (dec_tok _) (digit_hash _) _⟩
  unfold polygonLine triPolygon
  simp only [List.flatMap_cons, List.flatMap_nil, List.append_nil, List.mem_append, List.mem_cons, not_or]
  exact ⟨no_newline (dec_tok _), ⟨by decide, no_newline (dec_tok _)⟩, ⟨by decide, no_newline (dec_tok _)⟩, by decide, no_newline (dec_tok _)⟩

theorem isPoint_line {N : Doubles F} (hN : N.Lawful) (p : P3 F) : IsPoint N (words (pointLine N p)) p := by
  rw [words_point hN]
  exact ⟨_, _, _, [], rfl, isReal_fmt hN _, isReal_fmt hN _, isReal_fmt hN _⟩

/-- A triangle as a polygon. -/
def corners3 (f : Tri Nat) : List Nat := [f.a, f.b, f.c]

theorem isNats_face {f : Tri Nat} (h : f.a < 2 ^ 64 ∧ f.b < 2 ^ 64 ∧ f.c < 2 ^ 64) : List.Forall₂ IsNat [dec f.a, dec f.b, dec f.c] (corners3 f) :=
  .cons (isNat_dec h.1) (.cons (isNat_dec h.2.1) (.cons (isNat_dec h.2.2) .nil))

theorem isNat_three : IsNat "3".toList 3 := isNat_dec (n := 3) (by decide)

theorem isPolygon_line {f : Tri Nat} (h : f.a < 2 ^ 64 ∧ f.b < 2 ^ 64 ∧ f.c < 2 ^ 64) : IsPolygon (words (polygonLine (triPolygon f))) (corners3 f) := by
  rw [words_polygon]
  exact ⟨_, [dec f.a, dec f.b, dec f.c], [], rfl, isNat_three, isNats_face h⟩

theorem forall₂_lines {α β : Type} {R : List Char → β → Prop} (g : α → List Char) (k : α → β) (l : List α) (h : ∀ a ∈ l, R (g a) (k a)) : List.Forall₂ R (l.map g) (l.map k) := by
  rw [List.forall₂_map_left_iff, List.forall₂_map_right_iff]
  exact List.forall₂_same.2 h

/-- **C94, OFF.** What is written is an OFF file with the points, as doubles, and the faces. -/
theorem C94_off {N : Doubles F} (hN : N.Lawful) (dbl : P → P3 F) (t : Soup P D) (ht : Bits64 t) : IsOff N (writeOff N dbl t) (t.points.map dbl) (t.faces.map corners3) := by
  rw [writeOff_text]
  unfold offText
  have hcount : words (dec (t.points.map dbl).length ++ ' ' :: (dec (t.faces.map triPolygon).length ++ " 0".toList)) = [dec t.points.length, dec t.faces.length, "0".toList] := by
    rw [words_next (dec_tok _), List.length_map, List.length_map, words_tok (dec_tok _) (fun c r h => by injection h with h _; subst h; rfl)]
    rfl
  refine ⟨_, "OFF".toList, _, (t.points.map dbl).map (pointLine N), (t.faces.map triPolygon).map polygonLine, dec t.points.length, dec t.faces.length, ["0".toList], ⟨?_, .inl rfl⟩, ?_, ?_, hcount, ?_, ?_, ?_, ?_⟩
  · intro l hl
    simp only [List.mem_append, List.mem_cons, List.not_mem_nil, or_false, List.mem_map] at hl
    rcases hl with ((rfl | rfl) | ⟨p, -, rfl⟩) | ⟨_, ⟨f, -, rfl⟩, rfl⟩
    · decide
    · simp only [List.mem_append, List.mem_cons, not_or]
      exact ⟨no_newline (dec_tok _), by decide, no_newline (dec_tok _), by decide⟩
    · exact (point_line hN p).1
    · exact (polygon_line f).1
  · rw [List.filter_eq_self.2]
    · simp
    · intro l hl
      simp only [List.mem_append, List.mem_cons, List.not_mem_nil, or_false, List.mem_map] at hl
      rcases hl with ((rfl | rfl) | ⟨p, -, rfl⟩) | ⟨_, ⟨f, -, rfl⟩, rfl⟩
      · decide
      · exact significant_tok (dec_tok _) (digit_hash _) _
      · exact (point_line hN p).2
      · exact (polygon_line f).2
  · exact ⟨"OFF".toList, [], by decide +kernel, by decide +kernel, .inl rfl⟩
  · simpa using isNat_dec ht.1
  · simpa using isNat_dec ht.2.1
  · have := forall₂_lines (R := fun l p => IsPoint N (words l) p) (pointLine N) id (t.points.map dbl) fun p _ => isPoint_line hN p
    rwa [List.map_id] at this
  · rw [List.map_map]
    exact forall₂_lines _ corners3 t.faces fun f hf => isPolygon_line (ht.2.2 f hf)

theorem isInt_dec {v : Int} (h1 : -2 ^ 63 ≤ v) (h2 : v < 2 ^ 63) : IsInt (decInt v) v := by
  refine ⟨h1, h2, dec v.natAbs, dec_ne _, dec_digits _, ?_⟩
  unfold decInt
  rw [digitsValue_eq, decVal_dec]
  split
  · exact .inr ⟨rfl, by omega⟩
  · exact .inl ⟨.inl rfl, by omega⟩

theorem isRef_written (negative : Bool) {n i : Nat} (hn : n < 2 ^ 63) (hi : i < n) : IsRef n (objIndex negative n i) i := by
  rw [objIndex_eq negative hn hi]
  refine ⟨_, [], (objRef negative n i).v, by rw [List.append_nil], .inl rfl, isInt_dec ?_ ?_, ?_⟩
  all_goals unfold objRef; cases negative <;> simp <;> omega

theorem objFaces {N : Doubles F} (negative : Bool) {n : Nat} (hn : n < 2 ^ 63) (fs : List (Tri Nat)) (h : ∀ f ∈ fs, f.a < n ∧ f.b < n ∧ f.c < n) :
    ObjLines N n (fs.map fun f => "f".toList :: ([objIndex negative n f.a, objIndex negative n f.b, objIndex negative n f.c] ++ [])) [] (fs.map corners3) := by
  induction fs with
  | nil => exact .nil n
  | cons f fs ih =>
    obtain ⟨ha, hb, hc⟩ := h f (by simp)
    exact .face (.cons (isRef_written negative hn ha) (.cons (isRef_written negative hn hb) (.cons (isRef_written negative hn hc) .nil))) (.inl rfl) (ih fun f hf => h f (by simp [hf]))

theorem objPoints {N : Doubles F} (hN : N.Lawful) (ps : List (P3 F)) (n : Nat) {ls : List (List (List Char))} {fs : List (List Nat)} (h : ObjLines N (n + ps.length) ls [] fs) :
    ObjLines N n (ps.map (fun p => "v".toList :: [N.fmt p.1, N.fmt p.2.1, N.fmt p.2.2]) ++ ls) ps fs := by
  induction ps generalizing n with
  | nil => exact h
  | cons p ps ih =>
    refine .vertex ⟨_, _, _, [], rfl, isReal_fmt hN _, isReal_fmt hN _, isReal_fmt hN _⟩ (ih (n + 1) ?_)
    rwa [show n + 1 + ps.length = n + (p :: ps).length by simp; omega]

/-- The line of a face in a written OBJ file. -/
def objFaceLine (negative : Bool) (n : Nat) (f : Tri Nat) : List Char := "f".toList ++ ' ' :: (objIndex negative n f.a ++ ' ' :: (objIndex negative n f.b ++ ' ' :: objIndex negative n f.c))

/-- The words of the line of a face in a written OBJ file. -/
def objFaceWords (negative : Bool) (n : Nat) (f : Tri Nat) : List (List Char) := "f".toList :: ([objIndex negative n f.a, objIndex negative n f.b, objIndex negative n f.c] ++ [])

theorem tok_of (s : List Char) (h : s ≠ [] ∧ s.all (fun c => !isSpace c) = true) : Tok s := ⟨h.1, fun c hc => by simpa using List.all_eq_true.1 h.2 c hc⟩

theorem objIndex_tok (negative : Bool) {n i : Nat} (hn : n < 2 ^ 63) (hi : i < n) : Tok (objIndex negative n i) := by
  rw [objIndex_eq negative hn hi]
  exact decInt_tok _

theorem words_objFace (negative : Bool) {n : Nat} (hn : n < 2 ^ 63) {f : Tri Nat} (h : f.a < n ∧ f.b < n ∧ f.c < n) : words (objFaceLine negative n f) = objFaceWords negative n f := by
  unfold objFaceLine
  rw [words_next (tok_of _ (by decide)), words_next (objIndex_tok negative hn h.1), words_next (objIndex_tok negative hn h.2.1), words_last (objIndex_tok negative hn h.2.2)]
  rfl

theorem objFace_line (negative : Bool) {n : Nat} (hn : n < 2 ^ 63) {f : Tri Nat} (h : f.a < n ∧ f.b < n ∧ f.c < n) : '\n' ∉ objFaceLine negative n f ∧ significant (objFaceLine negative n f) = true := by
  refine ⟨?_, significant_tok (tok_of _ (by decide)) (fun c r h => by injection h with h _; subst h; decide) _⟩
  unfold objFaceLine
  simp only [List.mem_append, List.mem_cons, not_or]
  exact ⟨by decide, by decide, no_newline (objIndex_tok negative hn h.1), by decide, no_newline (objIndex_tok negative hn h.2.1), by decide, no_newline (objIndex_tok negative hn h.2.2)⟩

/-- The line of a vertex in a written OBJ file. -/
def objPointLine (N : Doubles F) (p : P3 F) : List Char := "v".toList ++ ' ' :: pointLine N p

theorem words_objPoint {N : Doubles F} (hN : N.Lawful) (p : P3 F) : words (objPointLine N p) = "v".toList :: [N.fmt p.1, N.fmt p.2.1, N.fmt p.2.2] := by
  unfold objPointLine
  rw [words_next (tok_of _ (by decide)), words_point hN]

theorem objPoint_line {N : Doubles F} (hN : N.Lawful) (p : P3 F) : '\n' ∉ objPointLine N p ∧ significant (objPointLine N p) = true := by
  refine ⟨?_, significant_tok (tok_of _ (by decide)) (fun c r h => by injection h with h _; subst h; decide) _⟩
  unfold objPointLine
  simp only [List.mem_append, List.mem_cons, not_or]
  exact ⟨by decide, by decide, (point_line hN _).1⟩

/-- **C94, OBJ.** What is written is an OBJ file with the points, as doubles, and the faces, whichever way indices are written. -/
theorem C94_obj {N : Doubles F} (hN : N.Lawful) (dbl : P → P3 F) (negative : Bool) (t : Soup P D) (hnv : t.points.length < 2 ^ 63) (ht : InRange t) : IsObj N (writeObj N dbl negative t) (t.points.map dbl) (t.faces.map corners3) := by
  refine ⟨((t.points.map dbl).map (objPointLine N)) ++ t.faces.map (objFaceLine negative t.points.length), ⟨?_, .inl ?_⟩, ?_⟩
  · intro l hl
    rcases List.mem_append.1 hl with hl | hl
    · obtain ⟨p, -, rfl⟩ := List.mem_map.1 hl
      exact (objPoint_line hN p).1
    · obtain ⟨f, hf, rfl⟩ := List.mem_map.1 hl
      exact (objFace_line negative hnv (ht f hf)).1
  · unfold writeObj
    rw [textOf_append, textOf_map, textOf_map, List.flatMap_map]
    congr 1
    · congr 1
      funext p
      rw [pointText_eq]
      rfl
    · congr 1
      funext f
      simp [objFaceLine]
  · rw [List.filter_eq_self.2]
    · have h1 : ((t.points.map dbl).map (objPointLine N)).map words = (t.points.map dbl).map fun p => "v".toList :: [N.fmt p.1, N.fmt p.2.1, N.fmt p.2.2] := by
        rw [List.map_map]
        exact List.map_congr_left fun p _ => words_objPoint hN p
      have h2 : (t.faces.map (objFaceLine negative t.points.length)).map words = t.faces.map (objFaceWords negative t.points.length) := by
        rw [List.map_map]
        exact List.map_congr_left fun f hf => words_objFace negative hnv (ht f hf)
      rw [List.map_append, h1, h2]
      refine objPoints hN _ 0 ?_
      rw [List.length_map, Nat.zero_add]
      exact objFaces negative hnv t.faces ht
    · intro l hl
      rcases List.mem_append.1 hl with hl | hl
      · obtain ⟨p, -, rfl⟩ := List.mem_map.1 hl
        exact (objPoint_line hN p).2
      · obtain ⟨f, hf, rfl⟩ := List.mem_map.1 hl
        exact (objFace_line negative hnv (ht f hf)).2

/-- The properties of vertices in a written PLY file. -/
def plyVertexProps : List Property := [.scalar "float".toList "x".toList, .scalar "float".toList "y".toList, .scalar "float".toList "z".toList]

/-- The properties of faces in a written PLY file. -/
def plyFaceProps : List Property := [.list "uchar".toList "int".toList "vertex_index".toList]

/-- The elements of a written PLY file. -/
def plyElements (nv nf : Nat) : List Element :=
  [⟨"vertex".toList, nv, plyVertexProps⟩, ⟨"face".toList, nf, plyFaceProps⟩]

theorem ply_first : Coordinate plyVertexProps "x".toList 0 ∧ Coordinate plyVertexProps "y".toList 1 ∧ Coordinate plyVertexProps "z".toList 2 ∧ Vertices plyFaceProps 0 :=
  ⟨Layout.first_of (by decide +kernel), Layout.first_of (by decide +kernel), Layout.first_of (by decide +kernel), Layout.first_of (by decide +kernel)⟩

theorem ply_needed (nv nf : Nat) : Needed (plyElements nv nf) 0 1 ⟨"vertex".toList, nv, plyVertexProps⟩ ⟨"face".toList, nf, plyFaceProps⟩ where
  vertex := ⟨⟨_, rfl, rfl⟩, fun j hj => absurd hj (by omega)⟩
  face := by
    refine ⟨⟨_, rfl, rfl⟩, fun j hj a ha => ?_⟩
    obtain rfl : j = 0 := by omega
    cases ha
    exact fun h => absurd (show "vertex".toList = "face".toList from h) (by decide)
  atVertex := rfl
  atFace := rfl
  x := ⟨0, ply_first.1⟩
  y := ⟨1, ply_first.2.1⟩
  z := ⟨2, ply_first.2.2.1⟩
  vertices := ⟨0, ply_first.2.2.2⟩

/-- **C94, PLY.** What is written is a PLY file with the points, as doubles, and the faces. -/
theorem C94_ply {N : Doubles F} (hN : N.Lawful) (dbl : P → P3 F) (t : Soup P D) (ht : Bits64 t) : IsPly N (writePly N dbl t) (t.points.map dbl) (t.faces.map corners3) := by
  rw [writePly_text]
  unfold plyText
  have w1 : words ("element vertex ".toList ++ dec t.points.length) = ["element".toList, "vertex".toList, dec t.points.length] := by
    rw [show "element vertex ".toList ++ dec t.points.length = "element".toList ++ ' ' :: ("vertex".toList ++ ' ' :: dec t.points.length) from rfl, words_next (tok_of _ (by decide)), words_next (tok_of _ (by decide)), words_last (dec_tok _)]
  have w2 : words ("element face ".toList ++ dec t.faces.length) = ["element".toList, "face".toList, dec t.faces.length] := by
    rw [show "element face ".toList ++ dec t.faces.length = "element".toList ++ ' ' :: ("face".toList ++ ' ' :: dec t.faces.length) from rfl, words_next (tok_of _ (by decide)), words_next (tok_of _ (by decide)), words_last (dec_tok _)]
  refine ⟨["ply".toList, "format ascii 1.0".toList, "element vertex ".toList ++ dec t.points.length, "property float x".toList, "property float y".toList, "property float z".toList,
      "element face ".toList ++ dec t.faces.length, "property list uchar int vertex_index".toList, "end_header".toList],
    plyElements t.points.length t.faces.length, [(t.points.map dbl).map (pointLine N), (t.faces.map triPolygon).map polygonLine], 0, 1, _, _, _, _, ⟨?_, .inl ?_⟩, ?_, .cons ?_ (.cons ?_ .nil), ply_needed _ _, rfl, rfl, ?_, ?_⟩
  · intro l hl
    simp only [List.flatten_cons, List.flatten_nil, List.append_nil, List.mem_append, List.mem_cons, List.not_mem_nil, or_false, List.mem_map] at hl
    rcases hl with (rfl | rfl | rfl | rfl | rfl | rfl | rfl | rfl | rfl) | ⟨p, -, rfl⟩ | ⟨_, ⟨f, -, rfl⟩, rfl⟩
    · decide
    · decide
    · rw [List.mem_append, not_or]; exact ⟨by decide, no_newline (dec_tok _)⟩
    · decide
    · decide
    · decide
    · rw [List.mem_append, not_or]; exact ⟨by decide, no_newline (dec_tok _)⟩
    · decide
    · decide
    · exact (point_line hN p).1
    · exact (polygon_line f).1
  · rw [List.length_map, List.length_map]
    simp only [List.flatten_cons, List.flatten_nil, List.append_nil, List.append_assoc]
  · refine ⟨["ply".toList, "format ascii 1.0".toList, "element vertex ".toList ++ dec t.points.length, "property float x".toList, "property float y".toList, "property float z".toList,
      "element face ".toList ++ dec t.faces.length, "property list uchar int vertex_index".toList], "end_header".toList, [], [[["element".toList, "vertex".toList, dec t.points.length], ["property".toList, "float".toList, "x".toList], ["property".toList, "float".toList, "y".toList], ["property".toList, "float".toList, "z".toList]],
      [["element".toList, "face".toList, dec t.faces.length], ["property".toList, "list".toList, "uchar".toList, "int".toList, "vertex_index".toList]]], rfl, by decide +kernel, .cons (.intro _ (isNat_dec ht.1)) (.cons (.intro _ (isNat_dec ht.2.1)) .nil), ?_, ?_⟩
    · intro e he p hp
      simp only [plyElements, List.mem_cons, List.not_mem_nil, or_false] at he
      rcases he with rfl | rfl <;> simp only [plyVertexProps, plyFaceProps, List.mem_cons, List.not_mem_nil, or_false] at hp
      · rcases hp with rfl | rfl | rfl <;> decide
      · subst hp; decide
    · show List.filter meaningful (List.map words ["ply".toList, "format ascii 1.0".toList, "element vertex ".toList ++ dec t.points.length, "property float x".toList, "property float y".toList, "property float z".toList,
        "element face ".toList ++ dec t.faces.length, "property list uchar int vertex_index".toList]) = _
      simp only [List.map_cons, List.map_nil]
      rw [w1, w2]
      rfl
  · simp [plyElements]
  · simp [plyElements]
  · have := forall₂_lines (R := IsVertex N plyVertexProps) (pointLine N) id (t.points.map dbl) fun p _ => by
      refine ⟨[.one (N.fmt p.1), .one (N.fmt p.2.1), .one (N.fmt p.2.2)], 0, 1, 2, N.fmt p.1, N.fmt p.2.1, N.fmt p.2.2, ?_, Layout.first_of (by decide +kernel), Layout.first_of (by decide +kernel), Layout.first_of (by decide +kernel), rfl, rfl, rfl, isReal_fmt hN _, isReal_fmt hN _, isReal_fmt hN _⟩
      rw [words_point hN]
      exact .one rfl (.one rfl (.one rfl (.nil [])))
    rwa [List.map_id] at this
  · rw [List.map_map]
    refine forall₂_lines _ corners3 t.faces fun f hf => ?_
    refine ⟨[.many [dec f.a, dec f.b, dec f.c]], 0, [dec f.a, dec f.b, dec f.c], ?_, ply_first.2.2.2, rfl, isNats_face (ht.2.2 f hf)⟩
    show Fills _ (words (polygonLine (triPolygon f))) _
    rw [words_polygon]
    exact .many (items := [dec f.a, dec f.b, dec f.c]) (ws := []) rfl isNat_three (.nil [])

/-- The files of the square (`square`), with the numbers of `natDoubles`. -/
example : IsOff natDoubles "OFF\n4 2 0\n0 0 0\n1 0 0\n1 1 0\n0 1 12\n3 0 1 2\n3 0 2 3\n".toList square.points [[0, 1, 2], [0, 2, 3]] := C94_off natDoubles_lawful id square ⟨by decide, by decide, by decide⟩
example : IsObj natDoubles "v 0 0 0\nv 1 0 0\nv 1 1 0\nv 0 1 12\nf -4 -3 -2\nf -4 -2 -1\n".toList square.points [[0, 1, 2], [0, 2, 3]] := C94_obj natDoubles_lawful id true square (by decide) (by unfold InRange; decide)
example : IsPly natDoubles (writePly natDoubles id square) square.points [[0, 1, 2], [0, 2, 3]] := C94_ply natDoubles_lawful id square ⟨by decide, by decide, by decide⟩

end Kigumi.Props
