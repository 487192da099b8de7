import Verif.Proofs.TextOff

/-!
# Reading PLY texts
-/
namespace Kigumi.Text
open Kigumi IS

variable {F D : Type}

/-- The elements of the files that are written. -/
def vertexElem (n : Nat) : Elem := ⟨"vertex".toList, n, [⟨"float".toList, "x".toList⟩, ⟨"float".toList, "y".toList⟩, ⟨"float".toList, "z".toList⟩]⟩
def faceElem (n : Nat) : Elem := ⟨"face".toList, n, [⟨"list".toList, "vertex_index".toList⟩]⟩
def thePlan : PlyPlan := ⟨0, 0, 1, 2, 1, 0⟩

theorem plyPlan_written (n m : Nat) : plyPlan [vertexElem n, faceElem m] = some thePlan := rfl

theorem headerLine_element (name : List Char) (hn : Tok name) {n : Nat} (h : n < 2 ^ 64) (els : List Elem) :
    plyHeaderLine ("element ".toList ++ name ++ ' ' :: dec n) .elements els = some (.elements, els ++ [⟨name, n, []⟩]) := by
  have e1 : (of ("element ".toList ++ name ++ ' ' :: dec n)).expectEof = ⟨"element".toList ++ (' ' :: (name ++ ' ' :: dec n)), false, true⟩ := by
    rw [show of ("element ".toList ++ name ++ ' ' :: dec n) = (⟨[] ++ 'e' :: ("lement ".toList ++ name ++ ' ' :: dec n), false, false⟩ : IS) from rfl, expectEof_tok spaces_nil (by decide)]
    simp
  have e2 : readStr ⟨"element".toList ++ (' ' :: (name ++ ' ' :: dec n)), false, false⟩ = (⟨' ' :: (name ++ ' ' :: dec n), false, false⟩, "element".toList) := by
    have := readStr_tok spaces_nil (t := "element".toList) (r := ' ' :: (name ++ ' ' :: dec n)) ⟨by decide, by decide⟩ (stop_space _)
    simpa using this
  have e3 : readStr ⟨' ' :: (name ++ ' ' :: dec n), false, false⟩ = (⟨' ' :: dec n, false, false⟩, name) := by
    have := readStr_tok spaces_one (t := name) (r := ' ' :: dec n) hn (stop_space _)
    simpa using this
  have e4 : readSize ⟨' ' :: dec n, false, false⟩ 0 = (⟨[], true, false⟩, n) := by
    have := readSize_dec spaces_one (v := n) h (r := []) stop_nil.digit 0
    rw [List.append_nil] at this
    exact this
  unfold plyHeaderLine
  dsimp only
  rw [e1, if_neg (by simp)]
  rw [show (IS.clear ⟨"element".toList ++ (' ' :: (name ++ ' ' :: dec n)), false, true⟩) = ⟨"element".toList ++ (' ' :: (name ++ ' ' :: dec n)), false, false⟩ from rfl, e2]
  dsimp only
  rw [if_neg (by decide), if_pos rfl, e3]
  dsimp only
  rw [e4]
  rfl

theorem header_step {l : List Char} {ls : List (List Char)} {st st' : PlyState} {els els' : List Elem} (h : plyHeaderLine l st els = some (st', els')) (hb : st' ≠ .body) :
    plyHeader (l :: ls) st els = plyHeader ls st' els' := by
  rw [plyHeader, h]
  dsimp only
  rw [if_neg hb]

theorem header_end {l : List Char} {ls : List (List Char)} {st : PlyState} {els els' : List Elem} (h : plyHeaderLine l st els = some (.body, els')) :
    plyHeader (l :: ls) st els = some (els', ls) := by
  rw [plyHeader, h]
  rfl

theorem plyHeader_written {n m : Nat} (hn : n < 2 ^ 64) (hm : m < 2 ^ 64) (ls : List (List Char)) :
    plyHeader (["ply".toList, "format ascii 1.0".toList, "element vertex ".toList ++ dec n, "property float x".toList, "property float y".toList, "property float z".toList,
      "element face ".toList ++ dec m, "property list uchar int vertex_index".toList, "end_header".toList] ++ ls) .signature [] = some ([vertexElem n, faceElem m], ls) := by
  simp only [List.cons_append, List.nil_append]
  rw [header_step (st' := .version) (els' := []) rfl (by decide), header_step (st' := .elements) (els' := []) rfl (by decide)]
  rw [show "element vertex ".toList ++ dec n = "element ".toList ++ "vertex".toList ++ ' ' :: dec n by simp]
  rw [header_step (headerLine_element _ ⟨by decide, by decide⟩ hn []) (by decide)]
  rw [header_step (st' := .elements) (els' := [⟨"vertex".toList, n, [⟨"float".toList, "x".toList⟩]⟩]) rfl (by decide)]
  rw [header_step (st' := .elements) (els' := [⟨"vertex".toList, n, [⟨"float".toList, "x".toList⟩, ⟨"float".toList, "y".toList⟩]⟩]) rfl (by decide)]
  rw [header_step (st' := .elements) (els' := [vertexElem n]) rfl (by decide)]
  rw [show "element face ".toList ++ dec m = "element ".toList ++ "face".toList ++ ' ' :: dec m by simp]
  rw [header_step (headerLine_element _ ⟨by decide, by decide⟩ hm _) (by decide)]
  rw [header_step (st' := .elements) (els' := [vertexElem n, faceElem m]) rfl (by decide)]
  exact header_end rfl

theorem plyVertex_text {N : Doubles F} (hN : N.Lawful) (p : P3 F) (n : Nat) : plyVertex N 0 1 2 0 (vertexElem n).props (of (pointLine N p)) (N.zero, N.zero, N.zero) = (⟨[], true, false⟩, p) := by
  have e1 : readDouble N (of (pointLine N p)) N.zero = (⟨' ' :: (N.fmt p.2.1 ++ ' ' :: N.fmt p.2.2), false, false⟩, p.1) := readDouble_fmt hN spaces_nil p.1 (stop_space _) _
  have e2 : readDouble N ⟨' ' :: (N.fmt p.2.1 ++ ' ' :: N.fmt p.2.2), false, false⟩ N.zero = (⟨' ' :: N.fmt p.2.2, false, false⟩, p.2.1) := readDouble_fmt hN spaces_one p.2.1 (stop_space _) _
  have e3 : readDouble N ⟨' ' :: N.fmt p.2.2, false, false⟩ N.zero = (⟨[], true, false⟩, p.2.2) := by
    have := readDouble_fmt hN spaces_one p.2.2 (r := []) stop_nil N.zero
    rw [List.append_nil] at this
    exact this
  unfold vertexElem
  dsimp only
  simp only [plyVertex, e1, e2, e3]
  simp

theorem plyLine_vertex {N : Doubles F} (hN : N.Lawful) (dflt : D) (p : P3 F) (n : Nat) (T : List (Nat × Elem)) (a : Acc F D) :
    plyLine N dflt thePlan (pointLine N p) ((0, vertexElem (n + 1)) :: T) a = (true, advance ((0, vertexElem n) :: T), ⟨(a.soup.addVertex p).1, a.stored + 1⟩) := by
  unfold plyLine
  dsimp only
  rw [if_pos (show 0 = thePlan.ve from rfl), show plyVertex N thePlan.x thePlan.y thePlan.z 0 (vertexElem (n + 1)).props (of (pointLine N p)) (N.zero, N.zero, N.zero) = _ from plyVertex_text hN p (n + 1)]
  rfl

theorem plyFace_text {p : Polygon} (hp : p.Valid) (n : Nat) : plyFace 0 0 (faceElem n).props (of (polygonLine p)) [] = (⟨p.extra, p.extra.isEmpty, false⟩, p.vertices) := by
  unfold faceElem
  dsimp only
  unfold plyFace
  rw [if_pos rfl, show of (polygonLine p) = ⟨[] ++ polygonLine p, false, false⟩ from rfl, readPolygon spaces_nil hp]
  dsimp only
  rw [readIndices_text hp.index hp.extra_space]
  rfl

theorem plyLine_face (N : Doubles F) (dflt : D) {p : Polygon} (hp : p.Valid) (n : Nat) (T : List (Nat × Elem)) (a : Acc F D) :
    plyLine N dflt thePlan (polygonLine p) ((1, faceElem (n + 1)) :: T) a = (true, advance ((1, faceElem n) :: T), ⟨addFaces a.soup dflt (fan p.vertices), a.stored + p.vertices.length⟩) := by
  unfold plyLine
  dsimp only
  rw [if_neg (show ¬ 1 = thePlan.ve by decide), if_pos (show 1 = thePlan.fe from rfl), show plyFace thePlan.vi 0 (faceElem (n + 1)).props (of (polygonLine p)) [] = _ from plyFace_text hp (n + 1)]
  dsimp only
  rw [if_neg (by simp), fanFaces_eq]
  rfl

theorem plyLoop_cons {N : Doubles F} {dflt : D} {q : PlyPlan} {l : List Char} {todo todo' : List (Nat × Elem)} {a a' : Acc F D} (h : plyLine N dflt q l todo a = (true, todo', a')) (ls : List (List Char)) :
    plyLoop N dflt q (l :: ls) todo a = plyLoop N dflt q ls todo' a' := by
  rw [plyLoop, h]
  rfl

theorem plyLoop_vertices {N : Doubles F} (hN : N.Lawful) (dflt : D) (ps : List (P3 F)) (ls : List (List Char)) (T : List (Nat × Elem)) (a : Acc F D) :
    plyLoop N dflt thePlan (ps.map (pointLine N) ++ ls) (advance ((0, vertexElem ps.length) :: T)) a =
      plyLoop N dflt thePlan ls (advance T) ⟨⟨a.soup.points ++ ps, a.soup.faces, a.soup.data⟩, a.stored + ps.length⟩ := by
  induction ps generalizing a with
  | nil =>
    rw [show advance ((0, vertexElem ([] : List (P3 F)).length) :: T) = advance T by simp [advance, vertexElem]]
    simp
  | cons p ps ih =>
    rw [show advance ((0, vertexElem (p :: ps).length) :: T) = (0, vertexElem (ps.length + 1)) :: T by simp [advance, vertexElem]]
    rw [List.map_cons, List.cons_append, plyLoop_cons (plyLine_vertex hN dflt p ps.length T a), ih]
    simp only [Soup.addVertex, List.append_assoc, List.singleton_append, List.length_cons]
    congr 2; omega

theorem plyLoop_faces (N : Doubles F) (dflt : D) (fs : List Polygon) (h : ∀ f ∈ fs, f.Valid) (a : Acc F D) :
    ∃ k, plyLoop N dflt thePlan (fs.map polygonLine) (advance [(1, faceElem fs.length)]) a =
      (true, [], ⟨⟨a.soup.points, a.soup.faces ++ fs.flatMap (fun f => fan f.vertices), a.soup.data ++ List.replicate (fs.flatMap (fun f => fan f.vertices)).length dflt⟩, k⟩) := by
  induction fs generalizing a with
  | nil => exact ⟨a.stored, by simp [plyLoop, advance, faceElem]⟩
  | cons f fs ih =>
    rw [show advance [(1, faceElem (f :: fs).length)] = [(1, faceElem (fs.length + 1))] by simp [advance, faceElem]]
    rw [List.map_cons, plyLoop_cons (plyLine_face N dflt (h f (by simp)) fs.length [] a), addFaces_eq]
    obtain ⟨k, hk⟩ := ih (fun g hg => h g (by simp [hg])) ⟨⟨a.soup.points, a.soup.faces ++ fan f.vertices, a.soup.data ++ List.replicate (fan f.vertices).length dflt⟩, a.stored + f.vertices.length⟩
    refine ⟨k, ?_⟩
    rw [hk]
    simp only [List.flatMap_cons, List.append_assoc, List.length_append, List.replicate_append_replicate]

theorem readPly_text {N : Doubles F} (hN : N.Lawful) (dflt : D) (ps : List (P3 F)) (hps : ps.length < 2 ^ 64) (fs : List Polygon) (hfs : fs.length < 2 ^ 64) (h : ∀ f ∈ fs, f.Valid) (target : Soup (P3 F) D) :
    ∃ k, readPly N dflt (of (plyText N ps fs)) target = (true, ⟨ps, fs.flatMap (fun f => fan f.vertices), List.replicate (fs.flatMap (fun f => fan f.vertices)).length dflt⟩, k) := by
  unfold readPly plyText
  rw [if_neg (by simp [of]), lines_textOf]
  · rw [List.append_assoc, plyHeader_written hps hfs]
    dsimp only
    rw [plyPlan_written]
    dsimp only
    rw [show advance (number 0 [vertexElem ps.length, faceElem fs.length]) = advance ((0, vertexElem ps.length) :: [(1, faceElem fs.length)]) from rfl, plyLoop_vertices hN]
    obtain ⟨k, hk⟩ := plyLoop_faces N dflt fs h ⟨⟨[] ++ ps, [], []⟩, 0 + ps.length⟩
    refine ⟨k, ?_⟩
    rw [show (Soup.empty : Soup (P3 F) D) = ⟨[], [], []⟩ from rfl, hk]
    simp
  · intro l hl
    rcases List.mem_append.1 hl with hl | hl
    · rcases List.mem_append.1 hl with hl | hl
      · simp only [List.mem_cons, List.not_mem_nil, or_false] at hl
        have hd : ∀ n, '\n' ∉ dec n := fun n => no_nl (dec_tok n).2
        rcases hl with rfl | rfl | rfl | rfl | rfl | rfl | rfl | rfl | rfl
        · decide
        · decide
        · rw [List.mem_append, not_or]; exact ⟨by decide, hd _⟩
        · decide
        · decide
        · decide
        · rw [List.mem_append, not_or]; exact ⟨by decide, hd _⟩
        · decide
        · decide
      · obtain ⟨p, -, rfl⟩ := List.mem_map.1 hl
        exact pointLine_no_nl hN p
    · obtain ⟨f, hf, rfl⟩ := List.mem_map.1 hl
      exact polygonLine_no_nl (h f hf)

end Kigumi.Text
