import Verif.Proofs.TextPly

/-!
# What the readers consume

Every successful extraction takes at least one character; an extraction on a failed stream fails.
-/
namespace Kigumi.Text
open Kigumi IS

variable {F D : Type}

theorem sentry_ok {s : IS} (h : s.sentry.fail = false) : s.good = true ∧ ∃ w c r, Spaces w ∧ isSpace c = false ∧ s.rest = w ++ c :: r ∧ s.sentry = ⟨c :: r, false, false⟩ := by
  unfold sentry at h ⊢
  by_cases hg : s.good = true
  · refine ⟨hg, ?_⟩
    rw [if_neg (by simp [hg])] at h ⊢
    have hl := List.takeWhile_append_dropWhile (p := isSpace) (l := s.rest)
    cases hd : s.rest.dropWhile isSpace with
    | nil => rw [hd] at h; cases h
    | cons c r =>
      rw [hd] at hl
      exact ⟨_, c, r, takeWhile_prop isSpace _, dropWhile_head _ _ hd, hl.symm, rfl⟩
  · rw [if_pos (by simp [hg])] at h; cases h

theorem sentry_rest (s : IS) : s.sentry.rest.length ≤ s.rest.length := by
  unfold sentry
  split
  · exact Nat.le_refl _
  · have := dropWhile_length isSpace s.rest
    split
    · simp
    · exact this

theorem good_fail {s : IS} (h : s.good = true) : s.fail = false := by unfold good at h; simp at h; exact h.2

theorem readStr_ok {s : IS} (h : s.readStr.1.fail = false) : s.fail = false ∧ s.readStr.1.rest.length + 1 ≤ s.rest.length := by
  by_cases hs : s.sentry.fail = false
  · obtain ⟨hg, w, c, r, hw, hc, he, hse⟩ := sentry_ok hs
    refine ⟨good_fail hg, ?_⟩
    unfold readStr
    dsimp only
    rw [hse, if_neg (by simp)]
    dsimp only
    rw [List.dropWhile_cons, if_pos (by simp [hc])]
    have := dropWhile_length (fun c => !isSpace c) r
    rw [he]; simp; omega
  · unfold readStr at h
    dsimp only at h
    rw [if_pos (by simpa using hs)] at h
    exact absurd h hs

theorem readStr_rest (s : IS) : s.readStr.1.rest.length ≤ s.rest.length := by
  by_cases h : s.readStr.1.fail = false
  · have := (readStr_ok h).2; omega
  · unfold readStr
    dsimp only
    split
    · exact sentry_rest s
    · have h1 := dropWhile_length (fun c => !isSpace c) s.sentry.rest
      have h2 := sentry_rest s
      dsimp only; omega

theorem scanInt_length (l : List Char) : (scanInt l).2.1.length + (scanInt l).2.2.length ≤ l.length := by
  have key : ∀ r : List Char, (r.takeWhile isDigit).length + (r.dropWhile isDigit).length = r.length := by
    intro r
    rw [← List.length_append, List.takeWhile_append_dropWhile]
  unfold scanInt
  split
  · next r => have := key r; simp; omega
  · next r => have := key r; simp; omega
  · have := key l; dsimp only; omega

theorem readSize_ok {s : IS} {old : Nat} (h : (s.readSize old).1.fail = false) : s.fail = false ∧ (s.readSize old).1.rest.length + 1 ≤ s.rest.length := by
  have hl := scanInt_length s.sentry.rest
  have hr := sentry_rest s
  unfold readSize at h ⊢
  dsimp only at h ⊢
  by_cases hs : s.sentry.fail = true
  · rw [if_pos hs] at h; rw [hs] at h; cases h
  · rw [if_neg hs] at h ⊢
    have hg := good_fail (sentry_ok (by simpa using hs)).1
    refine ⟨hg, ?_⟩
    generalize scanInt s.sentry.rest = z at h hl ⊢
    obtain ⟨ng, ds, r⟩ := z
    dsimp only at h hl ⊢
    by_cases hd : ds = []
    · rw [if_pos hd] at h; cases h
    · rw [if_neg hd] at h ⊢
      have : 1 ≤ ds.length := List.length_pos_iff.2 hd
      split at h
      · cases h
      · next h2 => rw [if_neg h2]; dsimp only; omega

theorem readSigned_ok {s : IS} {old : Int} (h : (s.readSigned old).1.fail = false) : s.fail = false ∧ (s.readSigned old).1.rest.length + 1 ≤ s.rest.length := by
  have hl := scanInt_length s.sentry.rest
  have hr := sentry_rest s
  unfold readSigned at h ⊢
  dsimp only at h ⊢
  by_cases hs : s.sentry.fail = true
  · rw [if_pos hs] at h; rw [hs] at h; cases h
  · rw [if_neg hs] at h ⊢
    have hg := good_fail (sentry_ok (by simpa using hs)).1
    refine ⟨hg, ?_⟩
    generalize scanInt s.sentry.rest = z at h hl ⊢
    obtain ⟨ng, ds, r⟩ := z
    dsimp only at h hl ⊢
    by_cases hd : ds = []
    · rw [if_pos hd] at h; cases h
    · rw [if_neg hd] at h ⊢
      have : 1 ≤ ds.length := List.length_pos_iff.2 hd
      split
      · split <;> (dsimp only; omega)
      · split <;> (dsimp only; omega)

theorem readDouble_ok {N : Doubles F} {s : IS} {old : F} (h : (readDouble N s old).1.fail = false) : s.fail = false ∧ (readDouble N s old).1.rest.length + 1 ≤ s.rest.length := by
  unfold readDouble at h ⊢
  dsimp only at h ⊢
  by_cases hs : s.readStr.1.fail = true
  · rw [if_pos hs] at h; rw [hs] at h; cases h
  · rw [if_neg hs] at h ⊢
    have := readStr_ok (s := s) (by simpa using hs)
    split at h
    · next e => exact this
    · next e => cases h

theorem readPoint_ok {N : Doubles F} {s : IS} {p : P3 F} (h : readPoint N s = some p) : s.fail = false ∧ 3 ≤ s.rest.length := by
  unfold readPoint at h
  dsimp only at h
  split at h
  · cases h
  · next hf =>
    have h3 := readDouble_ok (by simpa using hf)
    have h2 := readDouble_ok h3.1
    have h1 := readDouble_ok h2.1
    refine ⟨h1.1, ?_⟩
    omega

theorem readIndices_length (n : Nat) (s : IS) : (readIndices n s).2.length = n := by
  induction n generalizing s with
  | zero => rfl
  | succ n ih => unfold readIndices; dsimp only; rw [List.length_cons, ih]

theorem readIndices_ok {n : Nat} {s : IS} (h : (readIndices n s).1.fail = false) : s.fail = false ∧ (readIndices n s).1.rest.length + n ≤ s.rest.length := by
  induction n generalizing s with
  | zero => exact ⟨h, Nat.le_refl _⟩
  | succ n ih =>
    unfold readIndices at h ⊢
    dsimp only at h ⊢
    have h2 := ih h
    have h1 := readSize_ok h2.1
    exact ⟨h1.1, by omega⟩

/-! ## OBJ -/

theorem skipSuffix_rest (n : Nat) (s : IS) : (skipSuffix n s).rest.length ≤ s.rest.length := by
  induction n generalizing s with
  | zero => exact Nat.le_refl _
  | succ n ih =>
    unfold skipSuffix
    have hp : s.peek.1.rest = s.rest := by
      unfold peek
      split
      · rfl
      · split <;> rfl
    have hi : ∀ s : IS, s.ignore.rest.length ≤ s.rest.length := by
      intro s; unfold ignore
      split
      · exact Nat.le_refl _
      · split
        · exact Nat.le_refl _
        · next h => simp [h]
    split
    · next e => rw [← hp, e]; exact Nat.le_refl _
    · next s' c e =>
      have hs' : s'.rest = s.rest := by rw [← hp, e]
      split
      · rw [hs']; exact Nat.le_refl _
      · have := ih s'.ignore
        have := hi s'
        rw [hs'] at this; omega

theorem objIndices_length (nv n : Nat) (s : IS) (face : List Nat) : (objIndices nv n s face).2.length ≤ face.length + s.rest.length := by
  induction n generalizing s face with
  | zero => simp [objIndices]
  | succ n ih =>
    unfold objIndices
    dsimp only
    split
    · dsimp only; omega
    · next hf =>
      have h1 := (readSigned_ok (s := s) (old := 0) (by simpa using hf)).2
      have h2 := skipSuffix_rest ((s.readSigned 0).1.rest.length + 1) (s.readSigned 0).1
      split
      · refine Nat.le_trans (ih _ _) ?_
        rw [List.length_append, List.length_singleton]; omega
      · split
        · refine Nat.le_trans (ih _ _) ?_
          rw [List.length_append, List.length_singleton]; omega
        · dsimp only; omega

theorem expectEof_rest (s : IS) : s.expectEof.rest.length ≤ s.rest.length := by
  have := dropWhile_length isSpace s.rest
  unfold expectEof
  split
  · exact Nat.le_refl _
  · split
    · simp
    · exact this

theorem optHashEof_rest (s : IS) : s.optHashEof.rest.length ≤ s.rest.length := by
  unfold optHashEof
  dsimp only
  split
  · exact Nat.le_refl _
  · have h1 := expectEof_rest s
    split
    · exact h1
    · have hp : ∀ s : IS, s.peek.1.rest = s.rest := by
        intro s
        unfold peek
        split
        · rfl
        · split <;> rfl
      have h2 := hp s.expectEof.clear
      split
      · simp
      · next e => rw [e] at h2; simp only [setFail]; rw [h2]; exact h1

theorem objLine_stored (N : Doubles F) (dflt : D) (l : List Char) (a : Acc F D) : (objLine N dflt l a).2.stored ≤ a.stored + l.length := by
  unfold objLine
  dsimp only
  have h1 := optHashEof_rest (of l)
  have h2 := readStr_rest (of l).optHashEof.clear
  have h3 : (of l).optHashEof.clear.rest.length ≤ l.length := h1
  split
  · dsimp only; omega
  · split
    · split
      · dsimp only; omega
      · next e => have := (readPoint_ok e).2; dsimp only; omega
    · split
      · have := objIndices_length a.soup.points.length ((of l).optHashEof.clear.readStr.1.rest.length + 1) (of l).optHashEof.clear.readStr.1 []
        split <;> (dsimp only; simp only [List.length_nil] at this; omega)
      · dsimp only; omega

theorem objLoop_stored (N : Doubles F) (dflt : D) (ls : List (List Char)) (a : Acc F D) : (objLoop N dflt ls a).2.stored ≤ a.stored + (ls.map List.length).sum := by
  induction ls generalizing a with
  | nil => simp [objLoop]
  | cons l ls ih =>
    rw [objLoop]
    dsimp only
    have := objLine_stored N dflt l a
    simp only [List.map_cons, List.sum_cons]
    split
    · have := ih (objLine N dflt l a).2; omega
    · dsimp only; omega

/-! ## OFF -/

theorem offLine_stored (N : Doubles F) (dflt : D) (l : List Char) (a : Off F D) (h : (offLine N dflt l a).1 = true) : (offLine N dflt l a).2.stored ≤ a.stored + l.length := by
  have h1 := optHashEof_rest (of l)
  have h3 : (of l).optHashEof.clear.rest.length ≤ l.length := h1
  unfold offLine at h ⊢
  dsimp only at h ⊢
  split
  · dsimp only; omega
  · next hf =>
    rw [if_neg hf] at h
    split
    · split
      · dsimp only; omega
      · split <;> (dsimp only; omega)
    · split <;> (dsimp only; omega)
    · split
      · dsimp only; omega
      · next e => have := (readPoint_ok e).2; dsimp only; omega
    · next hst =>
      rw [hst] at h
      dsimp only at h
      split
      · next hff => rw [if_pos hff] at h; cases h
      · next hff =>
        have h4 := readIndices_ok (n := ((of l).optHashEof.clear.readSize 0).2) (s := ((of l).optHashEof.clear.readSize 0).1) (by simpa using hff)
        have h5 := readSize_ok h4.1
        dsimp only
        rw [readIndices_length]; omega
    · dsimp only; omega

theorem offLoop_stored (N : Doubles F) (dflt : D) (ls : List (List Char)) (a : Off F D) (h : (offLoop N dflt ls a).1 = true) : (offLoop N dflt ls a).2.stored ≤ a.stored + (ls.map List.length).sum := by
  induction ls generalizing a with
  | nil => simp [offLoop]
  | cons l ls ih =>
    rw [offLoop] at h ⊢
    dsimp only at h ⊢
    simp only [List.map_cons, List.sum_cons]
    split
    · next hl =>
      rw [if_pos hl] at h
      have h1 := offLine_stored N dflt l a hl
      have := ih (offLine N dflt l a).2 h; omega
    · next hl => rw [if_neg hl] at h; cases h

/-! ## PLY -/

theorem skipTokens_ok {n : Nat} {s : IS} (h : (skipTokens n s).fail = false) : s.fail = false ∧ (skipTokens n s).rest.length ≤ s.rest.length := by
  induction n generalizing s with
  | zero => exact ⟨h, Nat.le_refl _⟩
  | succ n ih =>
    unfold skipTokens at h ⊢
    have h2 := ih h
    have h1 := readStr_ok h2.1
    exact ⟨h1.1, by omega⟩

theorem skipProperty_ok {p : Prop'} {s : IS} (h : (skipProperty p s).fail = false) : s.fail = false ∧ (skipProperty p s).rest.length + 1 ≤ s.rest.length := by
  unfold skipProperty at h ⊢
  split
  · next hl =>
    rw [if_pos hl] at h
    dsimp only at h ⊢
    have h2 := skipTokens_ok h
    have h1 := readSize_ok h2.1
    exact ⟨h1.1, by omega⟩
  · next hl =>
    rw [if_neg hl] at h
    exact readStr_ok h

theorem plyVertex_ok {N : Doubles F} {xi yi zi i : Nat} {ps : List Prop'} {s : IS} {v : P3 F} (h : (plyVertex N xi yi zi i ps s v).1.fail = false) :
    s.fail = false ∧ (plyVertex N xi yi zi i ps s v).1.rest.length + ps.length ≤ s.rest.length := by
  induction ps generalizing i s v with
  | nil => exact ⟨h, Nat.le_refl _⟩
  | cons p ps ih =>
    obtain ⟨x, y, z⟩ := v
    unfold plyVertex at h ⊢
    dsimp only at h ⊢
    split
    · next e =>
      rw [if_pos e] at h
      have h2 := ih h
      have h1 := readDouble_ok h2.1
      exact ⟨h1.1, by simp only [List.length_cons]; omega⟩
    · next e =>
      rw [if_neg e] at h
      split
      · next e =>
        rw [if_pos e] at h
        have h2 := ih h
        have h1 := readDouble_ok h2.1
        exact ⟨h1.1, by simp only [List.length_cons]; omega⟩
      · next e =>
        rw [if_neg e] at h
        split
        · next e =>
          rw [if_pos e] at h
          have h2 := ih h
          have h1 := readDouble_ok h2.1
          exact ⟨h1.1, by simp only [List.length_cons]; omega⟩
        · next e =>
          rw [if_neg e] at h
          have h2 := ih h
          have h1 := skipProperty_ok h2.1
          exact ⟨h1.1, by simp only [List.length_cons]; omega⟩

theorem plyFace_ok {vi i : Nat} {ps : List Prop'} {s : IS} {f : List Nat} (h : (plyFace vi i ps s f).1.fail = false) :
    s.fail = false ∧ (plyFace vi i ps s f).1.rest.length + (plyFace vi i ps s f).2.length ≤ s.rest.length + f.length := by
  induction ps generalizing i s f with
  | nil => exact ⟨h, Nat.le_refl _⟩
  | cons p ps ih =>
    unfold plyFace at h ⊢
    dsimp only at h ⊢
    split
    · next e =>
      rw [if_pos e] at h
      have h3 := ih h
      have h2 := readIndices_ok h3.1
      have h1 := readSize_ok h2.1
      have hl := readIndices_length (s.readSize 0).2 (s.readSize 0).1
      have h4 := h3.2
      rw [List.length_append] at h4
      exact ⟨h1.1, by omega⟩
    · next e =>
      rw [if_neg e] at h
      have h2 := ih h
      have h1 := skipProperty_ok h2.1
      exact ⟨h1.1, by omega⟩

theorem plyLine_stored (N : Doubles F) (dflt : D) (q : PlyPlan) (l : List Char) (todo : List (Nat × Elem)) (hp : ∀ e ∈ todo, e.1 = q.ve → e.2.props ≠ []) (a : Acc F D) (h : (plyLine N dflt q l todo a).1 = true) :
    (plyLine N dflt q l todo a).2.2.stored ≤ a.stored + l.length := by
  unfold plyLine at h ⊢
  split
  · dsimp only; omega
  · next i e es =>
    dsimp only at h ⊢
    split
    · next hv =>
      rw [if_pos hv] at h
      split
      · next hf => rw [if_pos hf] at h; cases h
      · next hf =>
        have h1 := (plyVertex_ok (by simpa using hf)).2
        have h2 : 1 ≤ e.props.length := List.length_pos_iff.2 (hp (i, e) (by simp) hv)
        have h3 : (of l).rest.length = l.length := rfl
        dsimp only; omega
    · next hv =>
      rw [if_neg hv] at h
      split
      · next hf =>
        rw [if_pos hf] at h
        split
        · next hff => rw [if_pos hff] at h; cases h
        · next hff =>
          have h1 := (plyFace_ok (by simpa using hff)).2
          have h3 : (of l).rest.length = l.length := rfl
          simp only [List.length_nil] at h1
          dsimp only; omega
      · dsimp only; omega

theorem advance_mem {todo : List (Nat × Elem)} {e : Nat × Elem} (h : e ∈ advance todo) : e ∈ todo := (List.dropWhile_sublist _).subset h

theorem plyLine_todo (N : Doubles F) (dflt : D) (q : PlyPlan) (l : List Char) (todo : List (Nat × Elem)) (a : Acc F D) : ∀ e ∈ (plyLine N dflt q l todo a).2.1, ∃ e' ∈ todo, e'.1 = e.1 ∧ e'.2.props = e.2.props := by
  unfold plyLine
  split
  · intro e he; cases he
  · next i e es =>
    have key : ∀ x ∈ advance ((i, { e with count := e.count - 1 }) :: es), ∃ e' ∈ (i, e) :: es, e'.1 = x.1 ∧ e'.2.props = x.2.props := by
      intro x hx
      rcases List.mem_cons.1 (advance_mem hx) with rfl | hx
      · exact ⟨(i, e), by simp, rfl, rfl⟩
      · exact ⟨x, by simp [hx], rfl, rfl⟩
    have same : ∀ x ∈ (i, e) :: es, ∃ e' ∈ (i, e) :: es, e'.1 = x.1 ∧ e'.2.props = x.2.props := fun x hx => ⟨x, hx, rfl, rfl⟩
    dsimp only
    split
    · split
      · exact same
      · exact key
    · split
      · split
        · exact same
        · exact key
      · exact key

theorem plyLoop_stored (N : Doubles F) (dflt : D) (q : PlyPlan) (ls : List (List Char)) (todo : List (Nat × Elem)) (hp : ∀ e ∈ todo, e.1 = q.ve → e.2.props ≠ []) (a : Acc F D) (h : (plyLoop N dflt q ls todo a).1 = true) :
    (plyLoop N dflt q ls todo a).2.2.stored ≤ a.stored + (ls.map List.length).sum := by
  induction ls generalizing a todo with
  | nil => simp [plyLoop]
  | cons l ls ih =>
    rw [plyLoop] at h ⊢
    dsimp only at h ⊢
    simp only [List.map_cons, List.sum_cons]
    split
    · next hl =>
      rw [if_pos hl] at h
      have h1 := plyLine_stored N dflt q l todo hp a hl
      have := ih (plyLine N dflt q l todo a).2.1 (by
        intro e he hi
        obtain ⟨e', he', h1, h2⟩ := plyLine_todo N dflt q l todo a e he
        rw [← h2]; exact hp e' he' (h1.trans hi)) (plyLine N dflt q l todo a).2.2 h
      exact Nat.le_trans this (by omega)
    · next hl => rw [if_neg hl] at h; cases h

end Kigumi.Text
