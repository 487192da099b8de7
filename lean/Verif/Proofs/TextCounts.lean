import Verif.Proofs.TextWork

/-!
# Lines without significance, and declared counts
-/
namespace Kigumi.Text
open Kigumi IS

variable {F D : Type}

theorem significant_insignificant {l : List Char} (h : significant l = false) : Insignificant l := by
  rcases line_cases l with h' | ⟨w, c, r, hw, hc, hh, rfl⟩
  · exact h'
  · unfold significant at h
    rw [dropWhile_all hw, List.dropWhile_cons, if_neg (by simp [hc])] at h
    simp [hh] at h

theorem insignificant_not {l : List Char} (h : Insignificant l) : significant l = false := by
  unfold significant
  rcases h with h | ⟨w, r, hw, rfl⟩
  · have := dropWhile_all h ([] : List Char)
    rw [List.append_nil] at this; rw [this]; rfl
  · rw [dropWhile_all hw]; rfl

theorem significant_cases {l : List Char} (h : significant l = true) : ∃ w c r, Spaces w ∧ isSpace c = false ∧ c ≠ '#' ∧ l = w ++ c :: r := by
  rcases line_cases l with h' | h'
  · rw [insignificant_not h'] at h; cases h
  · exact h'

theorem objLoop_significant (N : Doubles F) (dflt : D) (ls : List (List Char)) (a : Acc F D) : objLoop N dflt (ls.filter significant) a = objLoop N dflt ls a := by
  induction ls generalizing a with
  | nil => rfl
  | cons l ls ih =>
    by_cases h : significant l = true
    · rw [List.filter_cons_of_pos h, objLoop, objLoop]
      dsimp only
      rw [ih]
    · rw [List.filter_cons_of_neg h, ih, objLoop_cons (objLine_insignificant N dflt (significant_insignificant (by simpa using h)) a)]

theorem offLoop_significant (N : Doubles F) (dflt : D) (ls : List (List Char)) (a : Off F D) : offLoop N dflt (ls.filter significant) a = offLoop N dflt ls a := by
  induction ls generalizing a with
  | nil => rfl
  | cons l ls ih =>
    by_cases h : significant l = true
    · rw [List.filter_cons_of_pos h, offLoop, offLoop]
      dsimp only
      rw [ih]
    · rw [List.filter_cons_of_neg h, ih, offLoop_cons (offLine_insignificant N dflt (significant_insignificant (by simpa using h)) a)]

/-! ## OFF -/

/-- Extraction skips white space in front. -/
theorem sentry_front {w : List Char} (hw : Spaces w) {c : Char} (hc : isSpace c = false) (r : List Char) : sentry ⟨c :: r, false, false⟩ = sentry (of (w ++ c :: r)) := by
  rw [show of (w ++ c :: r) = ⟨w ++ c :: r, false, false⟩ from rfl, sentry_tok hw hc]
  exact sentry_tok (w := []) spaces_nil hc r

theorem readSize_front {s t : IS} (h : s.sentry = t.sentry) (old : Nat) : s.readSize old = t.readSize old := by unfold readSize; rw [h]
theorem readPoint_front {s t : IS} (h : s.sentry = t.sentry) (N : Doubles F) : readPoint N s = readPoint N t := by
  have : s.readStr = t.readStr := by unfold readStr; rw [h]
  unfold readPoint
  rw [show readDouble N s N.zero = readDouble N t N.zero by unfold readDouble; rw [this]]

theorem offLine_significant (N : Doubles F) (dflt : D) {l : List Char} (h : significant l = true) (a : Off F D) {a' : Off F D} (hl : offLine N dflt l a = (true, a')) :
    (a.state = .signature ∧ a' = { a with state := .numbers }) ∨
    (a.state = .numbers ∧ ∃ nv nf, CountsLine l nv nf ∧ a' = { a with nv := nv, nf := nf, state := if nv = 0 then afterVertices nf else .vertices }) ∨
    (a.state = .vertices ∧ ∃ p, PointLine N l p ∧ a'.state = (if a.nv - 1 = 0 then afterVertices a.nf else .vertices) ∧ a'.nv = a.nv - 1 ∧ a'.nf = a.nf ∧ a'.soup = ⟨a.soup.points ++ [p], a.soup.faces, a.soup.data⟩) ∨
    (a.state = .faces ∧ ∃ vs, PolygonLine l vs ∧ a'.state = (if a.nf - 1 = 0 then .done else .faces) ∧ a'.nv = a.nv ∧ a'.nf = a.nf - 1 ∧
      a'.soup = ⟨a.soup.points, a.soup.faces ++ fan vs, a.soup.data ++ List.replicate (fan vs).length dflt⟩) := by
  obtain ⟨w, c, r, hw, hc, hh, rfl⟩ := significant_cases h
  unfold offLine at hl
  dsimp only at hl
  rw [optHashEof_tok hw hc hh, if_neg (by simp)] at hl
  rw [show (⟨c :: r, false, true⟩ : IS).clear = ⟨c :: r, false, false⟩ from rfl] at hl
  have hf := sentry_front hw hc r
  rw [readSize_front hf, readPoint_front hf] at hl
  split at hl
  · next e =>
    left
    split at hl
    · cases hl
    · split at hl
      · cases hl
      · cases hl; exact ⟨e, rfl⟩
  · next e =>
    right; left
    split at hl
    · cases hl
    · next hff => cases hl; exact ⟨e, _, _, ⟨rfl, rfl, by simpa using hff⟩, rfl⟩
  · next e =>
    right; right; left
    split at hl
    · cases hl
    · next p hp => cases hl; exact ⟨e, p, hp, rfl, rfl, rfl, rfl⟩
  · next e =>
    right; right; right
    split at hl
    · cases hl
    · next hff =>
      cases hl
      have hn := readIndices_length ((of (w ++ c :: r)).readSize 0).2 ((of (w ++ c :: r)).readSize 0).1
      refine ⟨e, (readIndices ((of (w ++ c :: r)).readSize 0).2 ((of (w ++ c :: r)).readSize 0).1).2, ⟨hn.symm, ?_, ?_⟩, rfl, rfl, rfl, ?_⟩
      · rw [hn]
      · rw [hn]; simpa using hff
      · dsimp only; rw [addFaces_eq, fanFaces_eq]
  · cases hl

theorem offLoop_step {N : Doubles F} {dflt : D} {l : List Char} {ls : List (List Char)} {a a' : Off F D} (h : offLoop N dflt (l :: ls) a = (true, a')) : ∃ b, offLine N dflt l a = (true, b) ∧ offLoop N dflt ls b = (true, a') := by
  rw [offLoop] at h
  dsimp only at h
  split at h
  · next e => exact ⟨(offLine N dflt l a).2, Prod.ext e rfl, h⟩
  · cases h

theorem offLoop_faces_inv (N : Doubles F) (dflt : D) (ls : List (List Char)) (hs : ∀ l ∈ ls, significant l = true) (a a' : Off F D) (h : offLoop N dflt ls a = (true, a')) (hd : a'.state = .done) (ha : a.state = afterVertices a.nf) :
    ∃ polys, ls.length = a.nf ∧ List.Forall₂ PolygonLine ls polys ∧ a'.soup = ⟨a.soup.points, a.soup.faces ++ polys.flatMap fan, a.soup.data ++ List.replicate (polys.flatMap fan).length dflt⟩ := by
  induction ls generalizing a with
  | nil =>
    cases h
    unfold afterVertices at ha
    rw [hd] at ha
    split at ha
    · next e => exact ⟨[], e.symm, .nil, by simp⟩
    · cases ha
  | cons l ls ih =>
    obtain ⟨b, hl, h⟩ := offLoop_step h
    have := offLine_significant N dflt (hs l (by simp)) a hl
    rw [ha] at this
    have hz : a.nf ≠ 0 := by
      intro e
      unfold afterVertices at this
      simp [e] at this
    unfold afterVertices at this
    rw [if_neg hz] at this
    rcases this with ⟨h1, _⟩ | ⟨h1, _⟩ | ⟨h1, _⟩ | ⟨_, vs, h1, h2, h3, h4, h5⟩
    · cases h1
    · cases h1
    · cases h1
    · obtain ⟨polys, i1, i2, i3⟩ := ih (fun l hl => hs l (by simp [hl])) b h (by rw [h2, h4]; rfl)
      refine ⟨vs :: polys, ?_, .cons h1 i2, ?_⟩
      · rw [List.length_cons, i1, h4]; omega
      · rw [i3, h5]
        simp only [List.flatMap_cons, List.length_append, List.append_assoc, List.replicate_append_replicate]

theorem offLoop_vertices_inv (N : Doubles F) (dflt : D) (ls : List (List Char)) (hs : ∀ l ∈ ls, significant l = true) (a a' : Off F D) (h : offLoop N dflt ls a = (true, a')) (hd : a'.state = .done)
    (ha : a.state = if a.nv = 0 then afterVertices a.nf else .vertices) :
    ∃ vl fl ps polys, ls = vl ++ fl ∧ vl.length = a.nv ∧ fl.length = a.nf ∧ List.Forall₂ (PointLine N) vl ps ∧ List.Forall₂ PolygonLine fl polys ∧
      a'.soup = ⟨a.soup.points ++ ps, a.soup.faces ++ polys.flatMap fan, a.soup.data ++ List.replicate (polys.flatMap fan).length dflt⟩ := by
  induction ls generalizing a with
  | nil =>
    by_cases hz : a.nv = 0
    · rw [if_pos hz] at ha
      obtain ⟨polys, h1, h2, h3⟩ := offLoop_faces_inv N dflt [] hs a a' h hd ha
      exact ⟨[], [], [], polys, rfl, hz.symm, h1, .nil, h2, by simpa using h3⟩
    · cases h
      rw [if_neg hz, hd] at ha; cases ha
  | cons l ls ih =>
    by_cases hz : a.nv = 0
    · rw [if_pos hz] at ha
      obtain ⟨polys, h1, h2, h3⟩ := offLoop_faces_inv N dflt _ hs a a' h hd ha
      exact ⟨[], _, [], polys, rfl, hz.symm, h1, .nil, h2, by simpa using h3⟩
    · rw [if_neg hz] at ha
      obtain ⟨b, hl, h⟩ := offLoop_step h
      have := offLine_significant N dflt (hs l (by simp)) a hl
      rw [ha] at this
      rcases this with ⟨h1, _⟩ | ⟨h1, _⟩ | ⟨_, p, h1, h2, h3, h4, h5⟩ | ⟨h1, _⟩
      · cases h1
      · cases h1
      · obtain ⟨vl, fl, ps, polys, i1, i2, i3, i4, i5, i6⟩ := ih (fun l hl => hs l (by simp [hl])) b h (by rw [h2, h3, h4])
        refine ⟨l :: vl, fl, p :: ps, polys, by rw [i1]; rfl, ?_, by rw [i3, h4], .cons h1 i4, i5, ?_⟩
        · rw [List.length_cons, i2, h3]; omega
        · rw [i6, h5]; simp
      · cases h1

/-! ## PLY -/

/-- A vertex line of the body. -/
def PlyVertexLine (N : Doubles F) (q : PlyPlan) (e : Elem) (l : List Char) (p : P3 F) : Prop :=
  (plyVertex N q.x q.y q.z 0 e.props (of l) (N.zero, N.zero, N.zero)).2 = p ∧ (plyVertex N q.x q.y q.z 0 e.props (of l) (N.zero, N.zero, N.zero)).1.fail = false

/-- A face line of the body. -/
def PlyFaceLine (q : PlyPlan) (e : Elem) (l : List Char) (vs : List Nat) : Prop :=
  (plyFace q.vi 0 e.props (of l) []).2 = vs ∧ (plyFace q.vi 0 e.props (of l) []).1.fail = false

/-- What the lines of an element add to the soup. -/
def Adds (N : Doubles F) (dflt : D) (q : PlyPlan) (i : Nat) (e : Elem) (ls : List (List Char)) (t t' : Soup (P3 F) D) : Prop :=
  if i = q.ve then ∃ ps, List.Forall₂ (PlyVertexLine N q e) ls ps ∧ t' = ⟨t.points ++ ps, t.faces, t.data⟩
  else if i = q.fe then ∃ polys, List.Forall₂ (PlyFaceLine q e) ls polys ∧ t' = ⟨t.points, t.faces ++ polys.flatMap fan, t.data ++ List.replicate (polys.flatMap fan).length dflt⟩
  else t' = t

theorem PlyVertexLine.count {N : Doubles F} {q : PlyPlan} {e : Elem} {n : Nat} {l : List Char} {p : P3 F} : PlyVertexLine N q { e with count := n } l p ↔ PlyVertexLine N q e l p := Iff.rfl

theorem plyLine_adds {N : Doubles F} {dflt : D} {q : PlyPlan} {l : List Char} {i : Nat} {e : Elem} {es todo' : List (Nat × Elem)} {a b : Acc F D} (h : plyLine N dflt q l ((i, e) :: es) a = (true, todo', b)) :
    todo' = advance ((i, { e with count := e.count - 1 }) :: es) ∧ Adds N dflt q i e [l] a.soup b.soup := by
  unfold plyLine at h
  dsimp only at h
  unfold Adds
  split at h
  · next hv =>
    rw [if_pos hv]
    split at h
    · cases h
    · next hf => cases h; exact ⟨rfl, [_], .cons ⟨rfl, by simpa using hf⟩ .nil, rfl⟩
  · next hv =>
    rw [if_neg hv]
    split at h
    · next hf =>
      rw [if_pos hf]
      split at h
      · cases h
      · next hff => cases h; exact ⟨rfl, [_], .cons ⟨rfl, by simpa using hff⟩ .nil, by dsimp only; rw [addFaces_eq, fanFaces_eq]; simp⟩
    · next hf => rw [if_neg hf]; cases h; exact ⟨rfl, rfl⟩

theorem Adds.trans {N : Doubles F} {dflt : D} {q : PlyPlan} {i : Nat} {e : Elem} {ls ls' : List (List Char)} {t t' t'' : Soup (P3 F) D} (h : Adds N dflt q i e ls t t') (h' : Adds N dflt q i e ls' t' t'') : Adds N dflt q i e (ls ++ ls') t t'' := by
  unfold Adds at h h' ⊢
  split
  · next hv =>
    rw [if_pos hv] at h h'
    obtain ⟨ps, h1, rfl⟩ := h
    obtain ⟨ps', h1', rfl⟩ := h'
    exact ⟨ps ++ ps', List.rel_append h1 h1', by simp⟩
  · next hv =>
    rw [if_neg hv] at h h'
    split
    · next hf =>
      rw [if_pos hf] at h h'
      obtain ⟨ps, h1, rfl⟩ := h
      obtain ⟨ps', h1', rfl⟩ := h'
      exact ⟨ps ++ ps', List.rel_append h1 h1', by simp only [List.flatMap_append, List.length_append, List.append_assoc, List.replicate_append_replicate]⟩
    · next hf => rw [if_neg hf] at h h'; rw [h', h]

theorem Adds.refl (N : Doubles F) (dflt : D) (q : PlyPlan) (i : Nat) (e : Elem) (t : Soup (P3 F) D) : Adds N dflt q i e [] t t := by
  unfold Adds
  split
  · exact ⟨[], .nil, by simp⟩
  · split
    · exact ⟨[], .nil, by simp⟩
    · rfl

theorem plyLoop_step {N : Doubles F} {dflt : D} {q : PlyPlan} {l : List Char} {ls : List (List Char)} {todo todo' : List (Nat × Elem)} {a a' : Acc F D} (h : plyLoop N dflt q (l :: ls) todo a = (true, todo', a')) :
    ∃ mid b, plyLine N dflt q l todo a = (true, mid, b) ∧ plyLoop N dflt q ls mid b = (true, todo', a') := by
  rw [plyLoop] at h
  dsimp only at h
  split at h
  · next e => exact ⟨(plyLine N dflt q l todo a).2.1, (plyLine N dflt q l todo a).2.2, Prod.ext e rfl, h⟩
  · cases h

/-- The lines of one element. -/
theorem plyLoop_element (N : Doubles F) (dflt : D) (q : PlyPlan) (i n : Nat) (e : Elem) (es : List (Nat × Elem)) (ls : List (List Char)) (a a' : Acc F D) (h : plyLoop N dflt q ls (advance ((i, { e with count := n }) :: es)) a = (true, [], a')) :
    ∃ c ls' b, ls = c ++ ls' ∧ c.length = n ∧ Adds N dflt q i e c a.soup b.soup ∧ plyLoop N dflt q ls' (advance es) b = (true, [], a') := by
  induction n generalizing ls a with
  | zero => exact ⟨[], ls, a, rfl, rfl, Adds.refl .., h⟩
  | succ n ih =>
    rw [show advance ((i, { e with count := n + 1 }) :: es) = (i, { e with count := n + 1 }) :: es from rfl] at h
    cases ls with
    | nil => cases h
    | cons l ls =>
      obtain ⟨mid, b, h1, h2⟩ := plyLoop_step h
      obtain ⟨rfl, h3⟩ := plyLine_adds h1
      obtain ⟨c, ls', b', i1, i2, i3, i4⟩ := ih ls b h2
      exact ⟨l :: c, ls', b', by rw [i1]; rfl, by rw [List.length_cons, i2], Adds.trans (ls := [l]) h3 i3, i4⟩

/-- The parts of the body for the elements, numbered from `n`: each has the declared number of lines, those of vertices give the points and those of faces the triangles. -/
theorem plyLoop_elements (N : Doubles F) (dflt : D) (q : PlyPlan) (hq : q.ve ≠ q.fe) (els : List Elem) (n : Nat) (ls : List (List Char)) (a a' : Acc F D) (h : plyLoop N dflt q ls (advance (number n els)) a = (true, [], a')) :
    ∃ parts, ls = parts.flatten ∧ List.Forall₂ (fun e c => c.length = e.count) els parts ∧
      ∃ ps polys, a'.soup = ⟨a.soup.points ++ ps, a.soup.faces ++ polys.flatMap fan, a.soup.data ++ List.replicate (polys.flatMap fan).length dflt⟩ ∧
        (∀ k e c, n + k = q.ve → els[k]? = some e → parts[k]? = some c → List.Forall₂ (PlyVertexLine N q e) c ps) ∧
        (∀ k e c, n + k = q.fe → els[k]? = some e → parts[k]? = some c → List.Forall₂ (PlyFaceLine q e) c polys) ∧
        (q.ve < n → ps = []) ∧ (q.fe < n → polys = []) := by
  induction els generalizing n ls a with
  | nil =>
    rw [show advance (number n []) = [] from rfl] at h
    cases ls with
    | nil =>
      cases h
      exact ⟨[], rfl, .nil, [], [], by simp, by simp, by simp, fun _ => rfl, fun _ => rfl⟩
    | cons l ls =>
      obtain ⟨mid, b, h1, h2⟩ := plyLoop_step h
      cases h1
  | cons e es ih =>
    obtain ⟨c, ls', b, h1, h2, h3, h4⟩ := plyLoop_element N dflt q n e.count e (number (n + 1) es) ls a a' h
    obtain ⟨parts, i1, i2, ps, polys, i3, i4, i5, i6, i7⟩ := ih (n + 1) ls' b h4
    refine ⟨c :: parts, by rw [h1, i1]; rfl, .cons h2 i2, ?_⟩
    unfold Adds at h3
    split at h3
    · next hv =>
      obtain ⟨ps', j1, j2⟩ := h3
      have hps := i6 (by omega)
      subst hps
      refine ⟨ps', polys, by rw [i3, j2]; simp, ?_, ?_, fun hlt => by omega, fun hlt => i7 (by omega)⟩
      · intro k e' c' hk he hc
        have : k = 0 := by omega
        subst this
        cases he; cases hc; exact j1
      · intro k e' c' hk he hc
        cases k with
        | zero => exact absurd (hv.symm.trans hk) hq
        | succ k => exact i5 k e' c' (by omega) he hc
    · next hv =>
      split at h3
      · next hf =>
        obtain ⟨polys', j1, j2⟩ := h3
        have hps := i7 (by omega)
        subst hps
        refine ⟨ps, polys', by rw [i3, j2]; simp, ?_, ?_, fun hlt => i6 (by omega), fun hlt => by omega⟩
        · intro k e' c' hk he hc
          cases k with
          | zero => exact absurd hk hv
          | succ k => exact i4 k e' c' (by omega) he hc
        · intro k e' c' hk he hc
          have : k = 0 := by omega
          subst this
          cases he; cases hc; exact j1
      · next hf =>
        refine ⟨ps, polys, by rw [i3, h3], ?_, ?_, fun hlt => i6 (by omega), fun hlt => i7 (by omega)⟩
        · intro k e' c' hk he hc
          cases k with
          | zero => exact absurd hk hv
          | succ k => exact i4 k e' c' (by omega) he hc
        · intro k e' c' hk he hc
          cases k with
          | zero => exact absurd hk hf
          | succ k => exact i5 k e' c' (by omega) he hc

/-- What a plan says about the header. -/
theorem plyPlan_spec {els : List Elem} {q : PlyPlan} (h : plyPlan els = some q) :
    ∃ v f, els[q.ve]? = some v ∧ v.name = "vertex".toList ∧ els[q.fe]? = some f ∧ f.name = "face".toList ∧ v.props ≠ [] ∧ q.ve ≠ q.fe := by
  unfold plyPlan at h
  obtain ⟨ve, h1, h⟩ := Option.bind_eq_some_iff.1 h
  obtain ⟨v, h2, h⟩ := Option.bind_eq_some_iff.1 h
  obtain ⟨x, h3, h⟩ := Option.bind_eq_some_iff.1 h
  obtain ⟨y, h4, h⟩ := Option.bind_eq_some_iff.1 h
  obtain ⟨z, h5, h⟩ := Option.bind_eq_some_iff.1 h
  obtain ⟨fe, h6, h⟩ := Option.bind_eq_some_iff.1 h
  obtain ⟨f, h7, h⟩ := Option.bind_eq_some_iff.1 h
  obtain ⟨vi, h8, h⟩ := Option.bind_eq_some_iff.1 h
  cases h
  have key : ∀ {nm : List Char} {k : Nat} {e : Elem}, findElement els nm = some k → els[k]? = some e → e.name = nm := by
    intro nm k e hk he
    obtain ⟨hlt, hp, _⟩ := List.findIdx?_eq_some_iff_getElem.1 hk
    rw [List.getElem?_eq_getElem hlt] at he
    cases he
    simpa using hp
  have hv := key h1 h2
  have hf := key h6 h7
  refine ⟨v, f, h2, hv, h7, hf, ?_, ?_⟩
  · intro e
    unfold findProperty at h3
    rw [e] at h3; cases h3
  · intro e
    dsimp only at e
    rw [e, h7] at h2
    cases h2
    rw [hv] at hf
    revert hf; decide

theorem number_mem {els : List Elem} {n : Nat} {x : Nat × Elem} (h : x ∈ number n els) : ∃ k, x.1 = n + k ∧ els[k]? = some x.2 := by
  induction els generalizing n with
  | nil => cases h
  | cons e es ih =>
    rcases List.mem_cons.1 h with rfl | h
    · exact ⟨0, rfl, rfl⟩
    · obtain ⟨k, h1, h2⟩ := ih h
      exact ⟨k + 1, by omega, h2⟩

end Kigumi.Text
