import Verif.Proofs.TextPlyRead
import Verif.Spec.MeshFile

/-! # OFF and OBJ files of any layout -/
namespace Kigumi.Text.Mesh
open Kigumi Kigumi.Text IS Ply

variable {F D : Type}

theorem start_line {l : List Char} (h : significant l = true) : (of l).optHashEof.fail = true ∧ At (of l).optHashEof.clear (words l) := by
  obtain ⟨w, c, r, hw, hc, hh, rfl⟩ := significant_cases h
  rw [optHashEof_tok hw hc hh, words_spaces hw]
  exact ⟨rfl, rfl, rfl, fun h => by cases h⟩

theorem optHashEof_fail {s : IS} (h : s.fail = true) : s.optHashEof.fail = true := by
  unfold optHashEof
  rw [if_pos h]
  exact h

theorem comment_iff {s : IS} {ws : List (List Char)} (h : At s ws) : (Comment ws ∧ s.optHashEof.fail = false) ∨ (¬ Comment ws ∧ s.optHashEof.fail = true ∧ At s.optHashEof.clear ws) := by
  cases ws with
  | nil =>
    refine .inl ⟨.inl rfl, ?_⟩
    have he := h.expectEof_iff.2 rfl
    unfold optHashEof
    rw [if_neg (by simp [h.fail])]
    dsimp only
    rw [if_pos (by simp [he])]
    exact he
  | cons w ws =>
    obtain ⟨a, r, rfl, ha, hw, hr, e⟩ := h.cons
    obtain ⟨hne, hw'⟩ := hw
    cases w with
    | nil => exact absurd rfl hne
    | cons c w =>
      have hc := hw' c (by simp)
      by_cases hh : c = '#'
      · subst hh
        refine .inl ⟨.inr ⟨w, ws, rfl⟩, ?_⟩
        exact optHashEof_insignificant (l := a ++ ('#' :: w ++ r)) (.inr ⟨a, w ++ r, ha, rfl⟩)
      · refine .inr ⟨?_, ?_⟩
        · rintro (h' | ⟨r', rest, h'⟩)
          · cases h'
          · injection h' with h' _
            injection h' with h' _
            exact hh h'
        · have := optHashEof_tok ha hc hh (w ++ r)
          rw [show (⟨a ++ (c :: w ++ r), false, false⟩ : IS) = of (a ++ c :: (w ++ r)) from rfl, this]
          refine ⟨rfl, rfl, ?_, fun h => by cases h⟩
          show words (c :: w ++ r) = _
          rw [words_tok ⟨hne, hw'⟩ hr, e]

/-! ## Signatures -/

theorem dropPrefix_eq {pre s x : List Char} (h : dropPrefix pre s = x) : s = x ∨ s = pre ++ x := by
  unfold dropPrefix at h
  split at h
  · next hp =>
    right
    obtain ⟨t, rfl⟩ := List.isPrefixOf_iff_prefix.1 hp
    rw [List.drop_left] at h
    rw [h]
  · exact .inl h

theorem offNames_iff (t : List Char) : dropPrefix ['N'] (dropPrefix ['C'] (dropPrefix ['S', 'T'] t)) = ['O', 'F', 'F'] ↔ t ∈ offNames := by
  constructor
  · intro h
    have key : ∀ x ∈ [['O', 'F', 'F'], ['N', 'O', 'F', 'F']], ∀ y, (y = x ∨ y = ['C'] ++ x) → ∀ t, (t = y ∨ t = ['S', 'T'] ++ y) → t ∈ offNames := by
      intro x hx y hy t ht
      simp only [List.mem_cons, List.not_mem_nil, or_false] at hx
      rcases hx with rfl | rfl <;> rcases hy with rfl | rfl <;> rcases ht with rfl | rfl <;> decide
    refine key (dropPrefix ['C'] (dropPrefix ['S', 'T'] t)) ?_ _ (dropPrefix_eq rfl) _ (dropPrefix_eq rfl)
    rcases dropPrefix_eq h with h | h <;> rw [h] <;> decide
  · intro h
    revert t
    decide +kernel

theorem offSignature_words {s : IS} {ws : List (List Char)} (h : At s ws) : (IsSignature ws ∧ (offSignature s).1.fail = false ∧ (offSignature s).2 = false) ∨ (¬ IsSignature ws ∧ ((offSignature s).1.fail = true ∨ (offSignature s).2 = true)) := by
  cases ws with
  | nil =>
    refine .inr ⟨fun ⟨_, _, e, _⟩ => (by cases e), .inl ?_⟩
    unfold offSignature
    dsimp only
    rw [if_pos h.readStr_nil]
    exact h.readStr_nil
  | cons w ws =>
    obtain ⟨s', e, h'⟩ := h.readStr
    unfold offSignature
    rw [e]
    dsimp only
    rw [if_neg (by simp [h'.fail])]
    by_cases hw : w ∈ offNames
    · rw [if_neg (by rw [ne_eq, not_not, offNames_iff]; exact hw)]
      rcases comment_iff h' with ⟨hc, hf⟩ | ⟨hc, hf, ha⟩
      · rw [if_pos (by simp [hf])]
        exact .inl ⟨⟨w, ws, rfl, hw, hc⟩, hf, rfl⟩
      · rw [if_neg (by simp [hf])]
        refine .inr ⟨fun ⟨_, _, e, _, hc'⟩ => hc (by cases e; exact hc'), ?_⟩
        rcases ha.expect ['B', 'I', 'N', 'A', 'R', 'Y'] with ⟨r, -, hr⟩ | ⟨-, hr⟩
        · right; simp [hr.fail]
        · left
          exact optHashEof_fail hr
    · rw [if_pos (by rw [ne_eq, offNames_iff]; exact hw)]
      exact .inr ⟨fun ⟨_, _, e, hn, _⟩ => hw (by cases e; exact hn), .inl rfl⟩

/-! ## Lines of OFF files -/

theorem At.readPoint {N : Doubles F} {s : IS} {ws : List (List Char)} (h : At s ws) {p : P3 F} (hp : IsPoint N ws p) : readPoint N s = some p := by
  obtain ⟨x, y, z, rest, rfl, hx, hy, hz⟩ := hp
  obtain ⟨s1, e1, h1⟩ := h.readDouble hx N.zero
  obtain ⟨s2, e2, h2⟩ := h1.readDouble hy N.zero
  obtain ⟨s3, e3, h3⟩ := h2.readDouble hz N.zero
  unfold Text.readPoint
  rw [e1]
  dsimp only
  rw [e2]
  dsimp only
  rw [e3]
  dsimp only
  rw [if_neg (by simp [h3.fail])]

theorem offLine_numbers' (N : Doubles F) (dflt : D) {l : List Char} (hl : significant l = true) {a : Off F D} (ha : a.state = .numbers) {x y : List Char} {rest : List (List Char)} (hw : words l = x :: y :: rest) {nv nf : Nat} (hx : IsNat x nv) (hy : IsNat y nf) :
    offLine N dflt l a = (true, { a with nv := nv, nf := nf, state := if nv = 0 then afterVertices nf else .vertices }) := by
  obtain ⟨h1, h2⟩ := start_line hl
  rw [hw] at h2
  obtain ⟨s1, e1, h3⟩ := h2.readSize hx 0
  obtain ⟨s2, e2, h4⟩ := h3.readSize hy 0
  unfold offLine
  dsimp only
  rw [if_neg (by simp [h1]), ha]
  dsimp only
  rw [e1]
  dsimp only
  rw [e2]
  dsimp only
  rw [if_neg (by simp [h4.fail])]

theorem offLine_vertex' {N : Doubles F} (dflt : D) {l : List Char} (hl : significant l = true) {a : Off F D} (ha : a.state = .vertices) {p : P3 F} (hp : IsPoint N (words l) p) :
    offLine N dflt l a = (true, { a with soup := (a.soup.addVertex p).1, stored := a.stored + 1, nv := a.nv - 1, state := if a.nv - 1 = 0 then afterVertices a.nf else .vertices }) := by
  obtain ⟨h1, h2⟩ := start_line hl
  unfold offLine
  dsimp only
  rw [if_neg (by simp [h1]), ha]
  dsimp only
  rw [At.readPoint h2 hp]

theorem offLine_face' (N : Doubles F) (dflt : D) {l : List Char} (hl : significant l = true) {a : Off F D} (ha : a.state = .faces) {f : List Nat} (hf : IsPolygon (words l) f) :
    offLine N dflt l a = (true, { a with soup := addFaces a.soup dflt (fanFaces f), stored := a.stored + f.length, nf := a.nf - 1, state := if a.nf - 1 = 0 then .done else .faces }) := by
  obtain ⟨h1, h2⟩ := start_line hl
  obtain ⟨c, items, rest, hw, hc, hi⟩ := hf
  rw [hw] at h2
  obtain ⟨s1, e1, h3⟩ := h2.readSize hc 0
  obtain ⟨s2, e2, h4⟩ := h3.readIndices hi
  unfold offLine
  dsimp only
  rw [if_neg (by simp [h1]), ha]
  dsimp only
  rw [e1]
  dsimp only
  rw [e2]
  dsimp only
  rw [if_neg (by simp [h4.fail])]

theorem offLoop_faces' (N : Doubles F) (dflt : D) {fl : List (List Char)} {fs : List (List Nat)} (hs : ∀ l ∈ fl, significant l = true) (h : List.Forall₂ (fun l f => IsPolygon (words l) f) fl fs) (a : Off F D) (ha : a.state = afterVertices a.nf) (hn : a.nf = fl.length) :
    ∃ b, offLoop N dflt fl a = (true, b) ∧ b.state = .done ∧ b.soup = ⟨a.soup.points, a.soup.faces ++ fs.flatMap fan, a.soup.data ++ List.replicate (fs.flatMap fan).length dflt⟩ := by
  induction h generalizing a with
  | nil =>
    refine ⟨a, rfl, ?_, by simp⟩
    rw [ha, hn]
    rfl
  | @cons l f fl fs hl h ih =>
    have hst : a.state = .faces := by rw [ha, hn]; rfl
    obtain ⟨b, h1, h2, h3⟩ := ih (fun x hx => hs x (by simp [hx])) { a with soup := addFaces a.soup dflt (fanFaces f), stored := a.stored + f.length, nf := a.nf - 1, state := if a.nf - 1 = 0 then .done else .faces } rfl (by
      show a.nf - 1 = fl.length
      rw [hn, List.length_cons]; rfl)
    refine ⟨b, by rw [offLoop_cons (offLine_face' N dflt (hs l (by simp)) hst hl), h1], h2, ?_⟩
    rw [h3]
    dsimp only
    rw [addFaces_eq, fanFaces_eq]
    simp only [List.flatMap_cons, List.append_assoc, List.length_append, List.replicate_append_replicate]

theorem offLoop_vertices' {N : Doubles F} (dflt : D) {vl fl : List (List Char)} {ps : List (P3 F)} (hs : ∀ l ∈ vl, significant l = true) (h : List.Forall₂ (fun l p => IsPoint N (words l) p) vl ps) (a : Off F D) (ha : a.state = if a.nv = 0 then afterVertices a.nf else .vertices) (hn : a.nv = vl.length) :
    ∃ b, offLoop N dflt (vl ++ fl) a = offLoop N dflt fl b ∧ b.state = afterVertices b.nf ∧ b.nf = a.nf ∧ b.soup = ⟨a.soup.points ++ ps, a.soup.faces, a.soup.data⟩ := by
  induction h generalizing a with
  | nil =>
    refine ⟨a, rfl, ?_, rfl, by simp⟩
    rw [ha, hn]
    rfl
  | @cons l p vl ps hl h ih =>
    have hst : a.state = .vertices := by rw [ha, hn]; rfl
    obtain ⟨b, h1, h2, h3, h4⟩ := ih (fun x hx => hs x (by simp [hx])) { a with soup := (a.soup.addVertex p).1, stored := a.stored + 1, nv := a.nv - 1, state := if a.nv - 1 = 0 then afterVertices a.nf else .vertices } rfl (by
      show a.nv - 1 = vl.length
      rw [hn, List.length_cons]; rfl)
    refine ⟨b, by rw [List.cons_append, offLoop_cons (offLine_vertex' dflt (hs l (by simp)) hst hl), h1], h2, h3, ?_⟩
    rw [h4]
    simp [Soup.addVertex]

/-! ## Incomplete faces -/

theorem At.noNumber {s : IS} {ws : List (List Char)} (h : At s ws) (hn : NoNumber ws) (old : Nat) : (s.readSize old).1.fail = true := by
  rcases hn with rfl | ⟨c, w, rest, rfl, hd, hp, hm⟩
  · exact h.readSize_nil old
  · obtain ⟨a, r, rfl, ha, hw, -⟩ := h.cons
    unfold IS.readSize
    rw [sentry_of_tok ha hw.1 fun c t e => hw.2 c (by rw [e]; simp)]
    dsimp only
    have : (scanInt (c :: w ++ r)).2.1 = [] := by
      rw [List.cons_append]
      unfold scanInt
      split
      · next e => exact absurd (List.cons.inj e).1 hm
      · next e => exact absurd (List.cons.inj e).1 hp
      · show (c :: (w ++ r)).takeWhile isDigit = []
        rw [List.takeWhile_cons, if_neg (by simp [hd])]
    rw [if_neg (by simp), if_pos this]

theorem readIndices_failed (n : Nat) {s : IS} (h : s.fail = true) : (readIndices n s).1.fail = true := by
  induction n generalizing s with
  | zero => exact h
  | succ n ih => exact ih (readSize_failed h 0)

theorem readIndices_incomplete {items rest : List (List Char)} {f : List Nat} (hf : List.Forall₂ IsNat items f) (hr : NoNumber rest) {s : IS} (h : At s (items ++ rest)) {n : Nat} (hn : items.length < n) : (readIndices n s).1.fail = true := by
  induction hf generalizing s n with
  | nil =>
    obtain ⟨m, rfl⟩ := Nat.exists_eq_succ_of_ne_zero (show n ≠ 0 by omega)
    exact readIndices_failed m (At.noNumber h hr 0)
  | @cons w i items f hw hf ih =>
    obtain ⟨m, rfl⟩ := Nat.exists_eq_succ_of_ne_zero (show n ≠ 0 by omega)
    obtain ⟨s', e, h'⟩ := At.readSize (w := w) (ws := items ++ rest) h hw 0
    have := ih h' (n := m) (by simp at hn; omega)
    show (readIndices m (s.readSize 0).1).1.fail = true
    rw [e]
    exact this

theorem Incomplete.fails {s : IS} {ws : List (List Char)} (h : At s ws) (hi : Incomplete ws) : (readIndices (s.readSize 0).2 (s.readSize 0).1).1.fail = true := by
  obtain ⟨c, n, items, f, rest, rfl, hc, hf, hn, hr⟩ := hi
  obtain ⟨s', e, h'⟩ := h.readSize hc 0
  rw [e]
  exact readIndices_incomplete hf hr h' hn

theorem skipTokens_failed (n : Nat) {s : IS} (h : s.fail = true) : (skipTokens n s).fail = true := by
  induction n generalizing s with
  | zero => exact h
  | succ n ih => exact ih (readStr_failed h)

theorem skipProperty_failed (p : Prop') {s : IS} (h : s.fail = true) : (skipProperty p s).fail = true := by
  unfold skipProperty
  split
  · exact skipTokens_failed _ (readSize_failed h 0)
  · exact readStr_failed h

theorem plyFace_failed (vi i : Nat) (ps : List Prop') {s : IS} (h : s.fail = true) (f : List Nat) : (plyFace vi i ps s f).1.fail = true := by
  induction ps generalizing i s f with
  | nil => exact h
  | cons p ps ih =>
    unfold plyFace
    split
    · exact ih _ (readIndices_failed _ (readSize_failed h 0)) _
    · exact ih _ (skipProperty_failed p h) _

theorem plyFace_incomplete {ps : List Property} (hv : ∀ p ∈ ps, p.Valid) {ws r : List (List Char)} (hb : Before ps ws r) (hi : Incomplete r) (p : Prop') (post : List Prop') (i : Nat) {s : IS} (h : At s ws) (f : List Nat) :
    (plyFace (i + ps.length) i (ps.map toProp ++ p :: post) s f).1.fail = true := by
  induction hb generalizing i s with
  | nil ws =>
    rw [List.map_nil, List.nil_append]
    unfold plyFace
    rw [if_pos (show i = i + [].length from rfl)]
    exact plyFace_failed _ _ _ (Incomplete.fails h hi) _
  | @one q ps w ws r hq hb ih =>
    have := ih (fun x hx => hv x (by simp [hx])) hi (i + 1) (skip_one (hv q (by simp)) hq h)
    rw [List.map_cons, List.cons_append]
    unfold plyFace
    rw [if_neg (by simp), show i + (q :: ps).length = i + 1 + ps.length by simp; omega]
    exact this
  | @many q ps c items ws r hq hc hb ih =>
    have := ih (fun x hx => hv x (by simp [hx])) hi (i + 1) (skip_many (hv q (by simp)) hq hc h)
    rw [List.map_cons, List.cons_append]
    unfold plyFace
    rw [if_neg (by simp), show i + (q :: ps).length = i + 1 + ps.length by simp; omega]
    exact this

/-! ## References in OBJ files -/

theorem IsInt.read {b : List Char} {v : Int} (h : IsInt b v) {a r : List Char} (ha : Spaces a) (hr : StopDigit r) : readSigned ⟨a ++ (b ++ r), false, false⟩ 0 = (⟨r, r.isEmpty, false⟩, v) := by
  obtain ⟨h1, h2, ds, h3, h4, h5⟩ := h
  have hb : b ≠ [] ∧ ∀ c t, b = c :: t → isSpace c = false := by
    have hd : ∀ c t, ds = c :: t → isSpace c = false := fun c t e => isDigit_not_space (h4 c (by rw [e]; simp))
    rcases h5 with ⟨rfl | rfl, -⟩ | ⟨rfl, -⟩
    · exact ⟨h3, hd⟩
    · exact ⟨by simp, fun c t e => by injection e with e _; rw [← e]; rfl⟩
    · exact ⟨by simp, fun c t e => by injection e with e _; rw [← e]; rfl⟩
  unfold readSigned
  rw [sentry_of_tok ha hb.1 hb.2]
  dsimp only
  rw [if_neg (by simp)]
  rw [digitsValue_eq] at h5
  rcases h5 with ⟨hw, rfl⟩ | ⟨rfl, rfl⟩
  · have : scanInt (b ++ r) = (false, ds, r) := by
      rcases hw with rfl | rfl
      · exact scanInt_digits h3 h4 hr
      · exact scanInt_plus h4 hr
    rw [this]
    dsimp only
    rw [if_neg h3, if_neg (by simp), if_neg (by omega)]
  · rw [List.cons_append, scanInt_neg h4 hr]
    dsimp only
    rw [if_neg h3, if_pos rfl, if_neg (by omega)]

/-- Nothing is left, or these words. -/
def Left (s : IS) (ws : List (List Char)) : Prop := At s ws ∨ (ws = [] ∧ s.good = false)

theorem Left.comment {s : IS} {ws : List (List Char)} (h : Left s ws) (hc : Comment ws) : (s.readSigned 0).1.fail = true := by
  rcases h with h | ⟨-, h⟩
  · rcases hc with rfl | ⟨r, rest, rfl⟩
    · unfold readSigned
      dsimp only
      rw [if_pos h.sentry_nil]
      exact h.sentry_nil
    · obtain ⟨a, r', rfl, ha, hw, -⟩ := h.cons
      unfold readSigned
      rw [sentry_of_tok ha hw.1 fun c t e => hw.2 c (by rw [e]; simp)]
      rfl
  · exact readSigned_ended h 0

theorem objIndices_words {nv : Nat} (hnv : nv < 2 ^ 64) {refs rest : List (List Char)} {f : List Nat} (hf : List.Forall₂ (IsRef nv) refs f) (hr : Comment rest) (n : Nat) (s : IS) (hs : Left s (refs ++ rest)) (hn : s.rest.length < n) (face : List Nat) :
    objIndices nv n s face = (true, face ++ f) := by
  induction hf generalizing n s face with
  | nil =>
    obtain ⟨m, rfl⟩ := Nat.exists_eq_succ_of_ne_zero (show n ≠ 0 by omega)
    unfold objIndices
    dsimp only
    rw [if_pos (hs.comment hr), List.append_nil]
  | @cons w i refs f hw hf ih =>
    obtain ⟨m, rfl⟩ := Nat.exists_eq_succ_of_ne_zero (show n ≠ 0 by omega)
    rcases hs with hs | ⟨hs, -⟩
    swap
    · cases hs
    obtain ⟨a, r, rfl, ha, ht, hst, e⟩ := hs.cons
    have e : words r = refs ++ rest := e
    obtain ⟨b, suf, v, rfl, hsuf, hi, hv⟩ := hw
    have hsp : ∀ c ∈ suf, isSpace c = false := fun c hc => ht.2 c (by simp [hc])
    have hsd : StopDigit (suf ++ r) := by
      rcases hsuf with rfl | ⟨r', rfl⟩
      · exact hst.digit
      · intro c t e
        injection e with e _
        rw [← e]; rfl
    have hread := hi.read ha hsd
    obtain ⟨e', f', h1, h2, h3⟩ := skipSuffix_spec hsp hst ((suf ++ r).length + 1) (by simp; omega)
    have hleft : Left ⟨r, e', f'⟩ (refs ++ rest) := by
      by_cases h0 : r = []
      · right
        refine ⟨?_, by simp [good, h2 h0]⟩
        rw [← e, h0]
        rfl
      · left
        obtain ⟨rfl, rfl⟩ := h3 h0
        exact ⟨rfl, e, fun h => by cases h⟩
    have hlen : b ≠ [] := by
      obtain ⟨-, -, ds, d1, -, d2⟩ := hi
      rcases d2 with ⟨rfl | rfl, -⟩ | ⟨rfl, -⟩
      · exact d1
      · simp
      · simp
    have hlen : 0 < b.length := List.length_pos_iff.2 hlen
    have hrest := fun face' => ih m ⟨r, e', f'⟩ hleft (by simp at hn ⊢; omega) face'
    unfold objIndices
    rw [List.append_assoc, hread]
    dsimp only
    rw [if_neg (by simp), h1]
    rcases hv with ⟨hp, hv⟩ | ⟨hp, hv⟩
    · rw [if_pos hp, hrest, hv]
      simp
    · rw [if_neg (by omega), if_pos hp, hrest, ← hv, Int.emod_eq_of_lt (by omega) (by omega)]
      simp

theorem objLine_words {N : Doubles F} {dflt : D} {l : List Char} (hl : significant l = true) (a : Acc F D) {w : List Char} {ws : List (List Char)} (hw : words l = w :: ws) : ∃ s', At s' ws ∧ objLine N dflt l a =
    if w = ['v'] then (match readPoint N s' with
      | none => (false, a)
      | some p => (true, ⟨(a.soup.addVertex p).1, a.stored + 1⟩))
    else if w = ['f'] then
      (if (objIndices a.soup.points.length (s'.rest.length + 1) s' []).1 then (true, ⟨addFaces a.soup dflt (fanFaces (objIndices a.soup.points.length (s'.rest.length + 1) s' []).2), a.stored + (objIndices a.soup.points.length (s'.rest.length + 1) s' []).2.length⟩)
        else (false, ⟨a.soup, a.stored + (objIndices a.soup.points.length (s'.rest.length + 1) s' []).2.length⟩))
    else (true, a) := by
  obtain ⟨h1, h2⟩ := start_line hl
  rw [hw] at h2
  obtain ⟨s', e, h3⟩ := h2.readStr
  refine ⟨s', h3, ?_⟩
  unfold objLine
  dsimp only
  rw [if_neg (by simp [h1]), e]
  dsimp only
  split
  · rfl
  · split <;> rfl

theorem objLoop_words {N : Doubles F} (dflt : D) {n : Nat} {W : List (List (List Char))} {ps : List (P3 F)} {fs : List (List Nat)} (h : ObjLines N n W ps fs) (hn : n + ps.length < 2 ^ 64) (ls : List (List Char)) (hs : ∀ l ∈ ls, significant l = true) (hW : ls.map words = W) (a : Acc F D) (ha : a.soup.points.length = n) :
    ∃ b, objLoop N dflt ls a = (true, b) ∧ b.soup = ⟨a.soup.points ++ ps, a.soup.faces ++ fs.flatMap fan, a.soup.data ++ List.replicate (fs.flatMap fan).length dflt⟩ := by
  induction h generalizing ls a with
  | nil n =>
    obtain rfl := List.map_eq_nil_iff.1 hW
    exact ⟨a, rfl, by simp⟩
  | @vertex n ws W p ps fs hp h ih =>
    obtain ⟨l, ls, rfl, hl, rfl⟩ := List.map_eq_cons_iff.1 hW
    obtain ⟨s', h1, h2⟩ := objLine_words (N := N) (dflt := dflt) (hs l (by simp)) a hl
    rw [if_pos (show "v".toList = ['v'] by decide), At.readPoint h1 hp] at h2
    obtain ⟨b, h3, h4⟩ := ih (by simp at hn ⊢; omega) ls (fun x hx => hs x (by simp [hx])) rfl ⟨(a.soup.addVertex p).1, a.stored + 1⟩ (by simp [Soup.addVertex, ha])
    refine ⟨b, by rw [objLoop_cons h2, h3], ?_⟩
    rw [h4]
    simp [Soup.addVertex]
  | @face n refs rest W f ps fs hf hr h ih =>
    obtain ⟨l, ls, rfl, hl, rfl⟩ := List.map_eq_cons_iff.1 hW
    obtain ⟨s', h1, h2⟩ := objLine_words (N := N) (dflt := dflt) (hs l (by simp)) a hl
    rw [if_neg (show "f".toList ≠ ['v'] by decide), if_pos (show "f".toList = ['f'] by decide), ha, objIndices_words (by omega) hf hr _ s' (.inl h1) (by omega) []] at h2
    rw [if_pos rfl] at h2
    obtain ⟨b, h3, h4⟩ := ih hn ls (fun x hx => hs x (by simp [hx])) rfl ⟨addFaces a.soup dflt (fanFaces ([] ++ f)), a.stored + ([] ++ f).length⟩ (by rw [addFaces_eq]; exact ha)
    refine ⟨b, by rw [objLoop_cons h2, h3], ?_⟩
    rw [h4]
    dsimp only
    rw [addFaces_eq, fanFaces_eq, List.nil_append]
    simp only [List.flatMap_cons, List.append_assoc, List.length_append, List.replicate_append_replicate]
  | @other n w ws W ps fs hv hf h ih =>
    obtain ⟨l, ls, rfl, hl, rfl⟩ := List.map_eq_cons_iff.1 hW
    obtain ⟨s', h1, h2⟩ := objLine_words (N := N) (dflt := dflt) (hs l (by simp)) a hl
    rw [if_neg (show w ≠ ['v'] from hv), if_neg (show w ≠ ['f'] from hf)] at h2
    obtain ⟨b, h3, h4⟩ := ih hn ls (fun x hx => hs x (by simp [hx])) rfl a ha
    exact ⟨b, by rw [objLoop_cons h2, h3], h4⟩

end Kigumi.Text.Mesh
