import Verif.Proofs.TextIO
import Verif.Spec.MeshText

/-!
# Reading OBJ texts
-/
namespace Kigumi.Text
open Kigumi IS

variable {F D : Type}

theorem fanFaces_eq (vs : List Nat) : fanFaces vs = fan vs := by
  unfold fanFaces
  split
  · next h =>
    cases vs with
    | nil => simp at h
    | cons a r =>
      apply List.ext_getElem
      · simp only [List.length_ofFn, List.length_cons, fan, List.length_map, List.length_zip, List.length_tail]; simp at h; omega
      · intro i h1 h2
        simp [fan]
  · next h =>
    match vs, h with
    | [], _ => rfl
    | [a], _ => rfl
    | [a, b], _ => rfl
    | a :: b :: c :: r, h => simp at h

theorem textOf_nil (t : List Char) : lines (of (textOf [] ++ t)) = lines (of t) := rfl

theorem lines_textOf (ls : List (List Char)) (h : ∀ l ∈ ls, '\n' ∉ l) : lines (of (textOf ls)) = ls := by
  induction ls with
  | nil => rfl
  | cons l ls ih =>
    rw [show textOf (l :: ls) = l ++ '\n' :: textOf ls by simp [textOf], lines_cons (h l (by simp)), ih fun x hx => h x (by simp [hx])]

theorem no_nl {t : List Char} (h : ∀ c ∈ t, isSpace c = false) : '\n' ∉ t := fun hm => by have := h _ hm; revert this; decide

theorem pointLine_no_nl {N : Doubles F} (hN : N.Lawful) (p : P3 F) : '\n' ∉ pointLine N p := by
  have h1 := no_nl (hN.tok p.1).2
  have h2 := no_nl (hN.tok p.2.1).2
  have h3 := no_nl (hN.tok p.2.2).2
  simp [pointLine, h1, h2, h3]

theorem objFaceLine_no_nl {nv : Nat} {rs : List Ref} (h : ∀ r ∈ rs, r.Valid nv) : '\n' ∉ objFaceLine rs := by
  simp only [objFaceLine, List.mem_cons, List.mem_flatMap, List.mem_append, not_or, not_exists, not_and]
  refine ⟨by decide, fun r hr => ⟨by decide, no_nl (decInt_tok r.v).2, no_nl (h r hr).suffix_no_space⟩⟩

theorem polygonLine_no_nl {p : Polygon} (h : p.Valid) : '\n' ∉ polygonLine p := by
  simp only [polygonLine, List.mem_cons, List.mem_flatMap, List.mem_append, not_or, not_exists, not_and]
  exact ⟨no_nl (dec_tok _).2, fun v _ => ⟨by decide, no_nl (dec_tok v).2⟩, h.extra_line⟩

/-! ## Lines -/

theorem objLine_insignificant (N : Doubles F) (dflt : D) {l : List Char} (h : Insignificant l) (a : Acc F D) : objLine N dflt l a = (true, a) := by
  unfold objLine
  dsimp only
  rw [optHashEof_insignificant h]; rfl

theorem objLine_vertex {N : Doubles F} (hN : N.Lawful) (dflt : D) (p : P3 F) (a : Acc F D) : objLine N dflt (objVertexLine N p) a = (true, ⟨(a.soup.addVertex p).1, a.stored + 1⟩) := by
  unfold objLine
  dsimp only
  rw [show of (objVertexLine N p) = of ([] ++ 'v' :: ' ' :: pointLine N p) from rfl, optHashEof_tok spaces_nil (by decide) (by decide)]
  rw [if_neg (by simp)]
  rw [show (IS.clear ⟨'v' :: ' ' :: pointLine N p, false, true⟩) = ⟨[] ++ (['v'] ++ ' ' :: pointLine N p), false, false⟩ from rfl,
    readStr_tok spaces_nil (t := ['v']) ⟨by simp, by decide⟩ (stop_space _)]
  dsimp only
  rw [if_pos rfl]
  have := readPoint_fmt hN spaces_one p stop_nil
  rw [List.append_nil] at this
  rw [show (⟨' ' :: pointLine N p, (' ' :: pointLine N p).isEmpty, false⟩ : IS) = ⟨[' '] ++ (N.fmt p.1 ++ ' ' :: (N.fmt p.2.1 ++ ' ' :: N.fmt p.2.2)), false, false⟩ from rfl, this]

/-- Where the stream is after the characters that follow an index. -/
theorem skipSuffix_spec {suf r : List Char} (hs : ∀ c ∈ suf, isSpace c = false) (hr : Stop r) (n : Nat) (hn : suf.length < n) :
    ∃ e f, skipSuffix n ⟨suf ++ r, (suf ++ r).isEmpty, false⟩ = ⟨r, e, f⟩ ∧ (r = [] → e = true) ∧ (r ≠ [] → e = false ∧ f = false) := by
  have key : ∀ suf : List Char, (∀ c ∈ suf, isSpace c = false) → ∀ n, suf.length < n → ∃ e f, skipSuffix n ⟨suf ++ r, false, false⟩ = ⟨r, e, f⟩ ∧ (r = [] → e = true) ∧ (r ≠ [] → e = false ∧ f = false) := by
    intro suf
    induction suf with
    | nil =>
      intro _ n hn
      obtain ⟨m, rfl⟩ := Nat.exists_eq_succ_of_ne_zero (show n ≠ 0 by simp at hn; omega)
      cases r with
      | nil => exact ⟨true, false, rfl, fun _ => rfl, fun h => absurd rfl h⟩
      | cons c r =>
        refine ⟨false, false, ?_, (fun h => nomatch h), (fun _ => ⟨rfl, rfl⟩)⟩
        show (if isSpace c = true then (⟨c :: r, false, false⟩ : IS) else _) = _
        rw [if_pos (hr c r rfl)]
    | cons c suf ih =>
      intro hs n hn
      obtain ⟨m, rfl⟩ := Nat.exists_eq_succ_of_ne_zero (show n ≠ 0 by omega)
      obtain ⟨e, f, h1, h2⟩ := ih (fun x hx => hs x (by simp [hx])) m (by simp at hn; omega)
      refine ⟨e, f, ?_, h2⟩
      show (if isSpace c = true then _ else skipSuffix m (ignore ⟨c :: (suf ++ r), false, false⟩)) = _
      rw [if_neg (by simp [hs c (by simp)])]
      exact h1
  by_cases h0 : suf ++ r = []
  · obtain ⟨m, rfl⟩ := Nat.exists_eq_succ_of_ne_zero (show n ≠ 0 by omega)
    have hr0 : r = [] := (List.append_eq_nil_iff.1 h0).2
    refine ⟨true, true, ?_, fun _ => rfl, fun h => absurd hr0 h⟩
    rw [h0, hr0]; rfl
  · have : (suf ++ r).isEmpty = false := by simpa using h0
    rw [this]; exact key suf hs n hn

theorem readSigned_ended {s : IS} (h : s.good = false) (old : Int) : (readSigned s old).1.fail = true := by
  unfold readSigned sentry; simp [h, setFail]

theorem objIndices_ended (nv n : Nat) {s : IS} (h : s.good = false) (face : List Nat) : objIndices nv n s face = (true, face) := by
  cases n with
  | zero => rfl
  | succ n =>
    unfold objIndices
    dsimp only
    rw [if_pos (readSigned_ended h 0)]

theorem refs_stop (rs : List Ref) : Stop (rs.flatMap fun r => ' ' :: (decInt r.v ++ r.suffix)) := by
  cases rs with
  | nil => exact stop_nil
  | cons r rs => exact stop_space _

theorem objIndices_refs {nv : Nat} (hnv : nv < 2 ^ 63) {rs : List Ref} (h : ∀ r ∈ rs, r.Valid nv) (n : Nat) (hn : rs.length < n) (face : List Nat) (e f : Bool) (he : rs = [] → e = true) (hf : rs ≠ [] → e = false ∧ f = false) :
    objIndices nv n ⟨rs.flatMap fun r => ' ' :: (decInt r.v ++ r.suffix), e, f⟩ face = (true, face ++ rs.map (Ref.index nv)) := by
  induction rs generalizing n face e f with
  | nil => rw [objIndices_ended nv n (by simp [good, he rfl])]; simp
  | cons r rs ih =>
    obtain ⟨rfl, rfl⟩ := hf (by simp)
    obtain ⟨m, rfl⟩ := Nat.exists_eq_succ_of_ne_zero (show n ≠ 0 by omega)
    have hv := h r (by simp)
    have hsd : StopDigit (r.suffix ++ rs.flatMap fun r => ' ' :: (decInt r.v ++ r.suffix)) := by
      intro c t hc
      cases hs : r.suffix with
      | nil => rw [hs, List.nil_append] at hc; exact (refs_stop rs).digit c t hc
      | cons c' t' => rw [hs, List.cons_append] at hc; injection hc with hc _; rw [← hc]; exact hv.suffix_no_digit c' t' hs
    have hrd := readSigned_dec (w := [' ']) (r := r.suffix ++ rs.flatMap fun r => ' ' :: (decInt r.v ++ r.suffix)) spaces_one (v := r.v) (by have := hv.low; omega) hv.high hsd 0
    have hst : (⟨(r :: rs).flatMap fun r => ' ' :: (decInt r.v ++ r.suffix), false, false⟩ : IS) = ⟨[' '] ++ (decInt r.v ++ (r.suffix ++ rs.flatMap fun r => ' ' :: (decInt r.v ++ r.suffix))), false, false⟩ := by
      simp
    rw [hst]
    unfold objIndices
    rw [hrd]
    dsimp only
    rw [if_neg (by simp)]
    obtain ⟨e', f', h1, h2, h3⟩ := skipSuffix_spec hv.suffix_no_space (refs_stop rs) ((r.suffix ++ rs.flatMap fun r => ' ' :: (decInt r.v ++ r.suffix)).length + 1) (by simp; omega)
    rw [h1]
    have hrest := fun face' => ih (fun x hx => h x (by simp [hx])) m (by simp at hn; omega) face' e' f' (fun h0 => h2 (by simp [h0])) (fun h0 => h3 (by cases rs with
      | nil => exact absurd rfl h0
      | cons a b => simp))
    by_cases hp : 0 < r.v
    · rw [if_pos hp, hrest]
      simp [Ref.index, hp]
    · rw [if_neg hp, if_pos (by have := hv.ne; omega), hrest]
      have : (((nv : Int) + r.v) % 2 ^ 64).toNat = nv - r.v.natAbs := by
        have := hv.low
        rw [Int.emod_eq_of_lt (by omega) (by omega)]; omega
      rw [this]
      simp [Ref.index, hp]

theorem flatMap_length_ge {α : Type} (g : α → List Char) (hg : ∀ x, 1 ≤ (g x).length) (xs : List α) : xs.length ≤ (xs.flatMap g).length := by
  induction xs with
  | nil => simp
  | cons x xs ih => have := hg x; simp only [List.flatMap_cons, List.length_append, List.length_cons]; omega

theorem objLine_face (N : Doubles F) (dflt : D) {a : Acc F D} (hnv : a.soup.points.length < 2 ^ 63) {rs : List Ref} (h : ∀ r ∈ rs, r.Valid a.soup.points.length) :
    objLine N dflt (objFaceLine rs) a = (true, ⟨addFaces a.soup dflt (fan (rs.map (Ref.index a.soup.points.length))), a.stored + rs.length⟩) := by
  unfold objLine
  dsimp only
  rw [show of (objFaceLine rs) = of ([] ++ 'f' :: rs.flatMap fun r => ' ' :: (decInt r.v ++ r.suffix)) from rfl, optHashEof_tok spaces_nil (by decide) (by decide)]
  rw [if_neg (by simp)]
  rw [show (IS.clear ⟨'f' :: rs.flatMap fun r => ' ' :: (decInt r.v ++ r.suffix), false, true⟩) = ⟨[] ++ (['f'] ++ rs.flatMap fun r => ' ' :: (decInt r.v ++ r.suffix)), false, false⟩ from rfl,
    readStr_tok spaces_nil (t := ['f']) ⟨by simp, by decide⟩ (refs_stop rs)]
  dsimp only
  rw [if_neg (by decide), if_pos rfl]
  have hlen := flatMap_length_ge (fun r : Ref => ' ' :: (decInt r.v ++ r.suffix)) (fun _ => by simp) rs
  rw [objIndices_refs hnv h _ (by omega) [] _ _ (fun h0 => by simp [h0]) (fun h0 => ⟨by cases rs with
    | nil => exact absurd rfl h0
    | cons a b => simp, rfl⟩)]
  dsimp only
  rw [if_pos rfl, fanFaces_eq]
  simp

/-! ## Texts -/

theorem objLoop_cons {N : Doubles F} {dflt : D} {l : List Char} {a a' : Acc F D} (h : objLine N dflt l a = (true, a')) (ls : List (List Char)) : objLoop N dflt (l :: ls) a = objLoop N dflt ls a' := by
  rw [objLoop, h]
  rfl

theorem objLoop_vertices {N : Doubles F} (hN : N.Lawful) (dflt : D) (ps : List (P3 F)) (ls : List (List Char)) (a : Acc F D) :
    objLoop N dflt (ps.map (objVertexLine N) ++ ls) a = objLoop N dflt ls ⟨⟨a.soup.points ++ ps, a.soup.faces, a.soup.data⟩, a.stored + ps.length⟩ := by
  induction ps generalizing a with
  | nil => simp
  | cons p ps ih =>
    rw [List.map_cons, List.cons_append, objLoop_cons (objLine_vertex hN dflt p a), ih]
    simp only [Soup.addVertex, List.append_assoc, List.singleton_append, List.length_cons]
    congr 2; omega

theorem objLoop_faces (N : Doubles F) (dflt : D) {nv : Nat} (hnv : nv < 2 ^ 63) (fs : List (List Ref)) (h : ∀ f ∈ fs, ∀ r ∈ f, r.Valid nv) (a : Acc F D) (ha : a.soup.points.length = nv) :
    ∃ k, objLoop N dflt (fs.map objFaceLine) a = (true, ⟨⟨a.soup.points, a.soup.faces ++ fs.flatMap (fun f => fan (f.map (Ref.index nv))), a.soup.data ++ List.replicate (fs.flatMap (fun f => fan (f.map (Ref.index nv)))).length dflt⟩, k⟩) := by
  induction fs generalizing a with
  | nil => exact ⟨a.stored, by simp [objLoop]⟩
  | cons f fs ih =>
    subst ha
    rw [List.map_cons, objLoop_cons (objLine_face N dflt hnv (h f (by simp))), addFaces_eq]
    obtain ⟨k, hk⟩ := ih (fun g hg => h g (by simp [hg])) ⟨⟨a.soup.points, a.soup.faces ++ fan (f.map (Ref.index a.soup.points.length)), a.soup.data ++ List.replicate (fan (f.map (Ref.index a.soup.points.length))).length dflt⟩, a.stored + f.length⟩ rfl
    refine ⟨k, ?_⟩
    rw [hk]
    simp only [List.flatMap_cons, List.append_assoc, List.length_append, List.replicate_append_replicate]

theorem readObj_text {N : Doubles F} (hN : N.Lawful) (dflt : D) (ps : List (P3 F)) (hps : ps.length < 2 ^ 63) (fs : List (List Ref)) (h : ∀ f ∈ fs, ∀ r ∈ f, r.Valid ps.length) (target : Soup (P3 F) D) :
    ∃ k, readObj N dflt (of (objText N ps fs)) target =
      (true, ⟨ps, fs.flatMap (fun f => fan (f.map (Ref.index ps.length))), List.replicate (fs.flatMap (fun f => fan (f.map (Ref.index ps.length)))).length dflt⟩, k) := by
  unfold readObj objText
  rw [if_neg (by simp [of]), lines_textOf]
  · rw [objLoop_vertices hN]
    obtain ⟨k, hk⟩ := objLoop_faces N dflt hps fs h ⟨⟨[] ++ ps, [], []⟩, 0 + ps.length⟩ rfl
    refine ⟨k, ?_⟩
    rw [show (Soup.empty : Soup (P3 F) D) = ⟨[], [], []⟩ from rfl, hk]
    simp
  · intro l hl
    rcases List.mem_append.1 hl with hl | hl
    · obtain ⟨p, -, rfl⟩ := List.mem_map.1 hl
      simp only [objVertexLine, List.mem_cons, not_or]
      exact ⟨by decide, by decide, pointLine_no_nl hN p⟩
    · obtain ⟨f, hf, rfl⟩ := List.mem_map.1 hl
      exact objFaceLine_no_nl (h f hf)

end Kigumi.Text
