import Verif.Props.TextIO

/-!
# Variants of mesh files (C71, C72)
-/
namespace Kigumi.Text
open Kigumi IS

variable {F P D : Type}

/-! ## Signatures of OFF files -/

/-- What may stand in front of `OFF`: textures, colours, normals. -/
def prefixes : List (List Char) := ["", "N", "C", "CN", "ST", "STN", "STC", "STCN"].map String.toList

theorem drop_prefixes {pre : List Char} (h : pre ∈ prefixes) (t : List Char) :
    dropPrefix ['N'] (dropPrefix ['C'] (dropPrefix ['S', 'T'] (pre ++ 'O' :: t))) = 'O' :: t := by
  simp only [prefixes, List.map_cons, List.map_nil, List.mem_cons, List.not_mem_nil, or_false] at h
  rcases h with rfl | rfl | rfl | rfl | rfl | rfl | rfl | rfl <;> simp [dropPrefix, List.isPrefixOf]

theorem dropPrefix_cases (p s : List Char) : s = dropPrefix p s ∨ s = p ++ dropPrefix p s := by
  unfold dropPrefix
  split
  · next h =>
    right
    obtain ⟨r, rfl⟩ := List.isPrefixOf_iff_prefix.1 h
    simp
  · exact .inl rfl

theorem prefixes_drop {t u : List Char} (h : dropPrefix ['N'] (dropPrefix ['C'] (dropPrefix ['S', 'T'] t)) = u) : ∃ pre ∈ prefixes, t = pre ++ u := by
  subst h
  have h1 := dropPrefix_cases ['S', 'T'] t
  generalize dropPrefix ['S', 'T'] t = t1 at h1 ⊢
  have h2 := dropPrefix_cases ['C'] t1
  generalize dropPrefix ['C'] t1 = t2 at h2 ⊢
  have h3 := dropPrefix_cases ['N'] t2
  generalize dropPrefix ['N'] t2 = t3 at h3 ⊢
  rcases h1 with rfl | rfl <;> rcases h2 with rfl | rfl <;> rcases h3 with rfl | rfl
  · exact ⟨[], by decide, rfl⟩
  · exact ⟨['N'], by decide, rfl⟩
  · exact ⟨['C'], by decide, rfl⟩
  · exact ⟨['C', 'N'], by decide, rfl⟩
  · exact ⟨['S', 'T'], by decide, rfl⟩
  · exact ⟨['S', 'T', 'N'], by decide, rfl⟩
  · exact ⟨['S', 'T', 'C'], by decide, rfl⟩
  · exact ⟨['S', 'T', 'C', 'N'], by decide, rfl⟩

theorem mem_take {p : Char → Bool} {l : List Char} {c : Char} (h : c ∈ l.takeWhile p) : p c = true := by
  induction l with
  | nil => cases h
  | cons a l ih =>
    rw [List.takeWhile_cons] at h
    split at h
    · next ha => exact (List.mem_cons.1 h).elim (fun e => e ▸ ha) ih
    · cases h

theorem prefixes_chars : ∀ p ∈ prefixes, ∀ c ∈ p, isSpace c = false := by decide

theorem stop_of (r : List Char) : Stop (r.dropWhile fun c => !isSpace c) := by
  intro c r' e
  have := dropWhile_head _ _ e
  simpa using this

theorem signature_prefix {pre : List Char} (h : pre ∈ prefixes) (r : List Char) : offSignature ⟨pre ++ 'O' :: r, false, false⟩ = offSignature ⟨'O' :: r, false, false⟩ := by
  have key : ∀ p ∈ prefixes, readStr ⟨p ++ 'O' :: r, false, false⟩ =
      (⟨r.dropWhile (fun c => !isSpace c), (r.dropWhile (fun c => !isSpace c)).isEmpty, false⟩, p ++ 'O' :: r.takeWhile fun c => !isSpace c) := by
    intro p hp
    have ht : Tok (p ++ 'O' :: r.takeWhile fun c => !isSpace c) := by
      refine ⟨by simp, fun c hc => ?_⟩
      rcases List.mem_append.1 hc with h | h
      · exact prefixes_chars p hp c h
      · rcases List.mem_cons.1 h with rfl | h
        · rfl
        · simpa using mem_take h
    have := readStr_tok (w := []) (r := r.dropWhile fun c => !isSpace c) spaces_nil ht (stop_of r)
    rw [List.nil_append, List.append_assoc, List.cons_append, List.takeWhile_append_dropWhile] at this
    exact this
  unfold offSignature
  rw [key pre h, show ('O' :: r : List Char) = [] ++ 'O' :: r from rfl, key [] (by decide)]
  dsimp only
  rw [drop_prefixes h, drop_prefixes (by decide)]

theorem offLine_prefix (N : Doubles F) (dflt : D) {pre : List Char} (h : pre ∈ prefixes) (r : List Char) :
    offLine N dflt (pre ++ 'O' :: r) ⟨.signature, 0, 0, Soup.empty, 0⟩ = offLine N dflt ('O' :: r) ⟨.signature, 0, 0, Soup.empty, 0⟩ := by
  have key : ∀ p ∈ prefixes, (of (p ++ 'O' :: r)).optHashEof = ⟨p ++ 'O' :: r, false, true⟩ := by
    intro p hp
    have : ∃ c q, p ++ 'O' :: r = c :: q ∧ isSpace c = false ∧ c ≠ '#' := by
      simp only [prefixes, List.map_cons, List.map_nil, List.mem_cons, List.not_mem_nil, or_false] at hp
      rcases hp with rfl | rfl | rfl | rfl | rfl | rfl | rfl | rfl <;> exact ⟨_, _, rfl, by decide, by decide⟩
    obtain ⟨c, q, e, h1, h2⟩ := this
    rw [e]
    exact optHashEof_tok (w := []) spaces_nil h1 h2 q
  have e := key [] (by decide)
  rw [List.nil_append] at e
  unfold offLine
  rw [key pre h, e]
  dsimp only [clear]
  rw [signature_prefix h]

/-- **C71.** A file whose signature has a prefix for textures, colours or normals is read like the file without. -/
theorem C71_variants (N : Doubles F) (dflt : D) {pre : List Char} (h : pre ∈ prefixes) (rest : List Char) (target : Soup (P3 F) D) :
    readOff N dflt (of (pre ++ "OFF".toList ++ rest)) target = readOff N dflt (of ("OFF".toList ++ rest)) target := by
  have hn : ∀ p ∈ prefixes, '\n' ∉ p ++ "OFF".toList := by decide
  have key : ∃ l ls, ∀ p ∈ prefixes, lines (of (p ++ "OFF".toList ++ rest)) = (p ++ 'O' :: l) :: ls := by
    by_cases hr : '\n' ∈ rest
    · obtain ⟨l, r, rfl, hl⟩ := List.append_of_mem hr |> fun ⟨l, r, e⟩ => (⟨rest.takeWhile (· != '\n'), (rest.dropWhile (· != '\n')).tail, by
        cases hd : rest.dropWhile (· != '\n') with
        | nil =>
          have := List.takeWhile_append_dropWhile (p := (· != '\n')) (l := rest)
          rw [hd, List.append_nil] at this
          rw [← this] at hr
          have := mem_take hr
          simp at this
        | cons c q =>
          have hc := dropWhile_head _ _ hd
          have : c = '\n' := by simpa using hc
          subst this
          rw [List.tail_cons, ← hd]
          exact (List.takeWhile_append_dropWhile ..).symm, fun hm => by have := mem_take hm; simp at this⟩ : ∃ l r, rest = l ++ '\n' :: r ∧ '\n' ∉ l)
      refine ⟨'F' :: 'F' :: l, lines (of r), fun p hp => ?_⟩
      rw [← List.append_assoc, lines_cons (by rw [List.mem_append]; exact fun h => h.elim (hn p hp) hl)]
      simp
    · refine ⟨'F' :: 'F' :: rest, [], fun p hp => ?_⟩
      rw [lines_last (by rw [List.mem_append]; exact fun h => h.elim (hn p hp) hr) (by simp)]
      simp
  obtain ⟨l, ls, key⟩ := key
  have e := key [] (by decide)
  rw [List.nil_append] at e
  unfold readOff
  rw [if_neg (by simp [of]), if_neg (by simp [of]), key pre h, e, offLoop, offLoop, offLine_prefix N dflt h, List.nil_append]

theorem insignificant_of {l : List Char} (h : (⟨l, l.isEmpty, false⟩ : IS).optHashEof.fail = false) : Insignificant l := by
  cases hl : l.dropWhile isSpace with
  | nil =>
    left
    intro c hc
    have := List.takeWhile_append_dropWhile (p := isSpace) (l := l)
    rw [hl, List.append_nil] at this
    rw [← this] at hc
    exact mem_take hc
  | cons c q =>
    right
    have e := List.takeWhile_append_dropWhile (p := isSpace) (l := l)
    rw [hl] at e
    refine ⟨l.takeWhile isSpace, q, fun x hx => mem_take hx, ?_⟩
    have hne : l.isEmpty = false := by
      cases l with
      | nil => cases hl
      | cons => rfl
    by_cases hh : c = '#'
    · rw [← hh, e]
    · rw [hne, ← e] at h
      have := optHashEof_tok (w := l.takeWhile isSpace) (fun x hx => mem_take hx) (dropWhile_head _ _ hl) hh q
      rw [show (⟨l.takeWhile isSpace ++ c :: q, false, false⟩ : IS) = of (l.takeWhile isSpace ++ c :: q) from rfl, this] at h
      cases h

theorem optHashEof_fail {s : IS} (h : s.fail = true) : s.optHashEof.fail = true := by
  unfold optHashEof
  rw [if_pos h]; exact h

theorem signature_inv {c : Char} {q : List Char} (hc : isSpace c = false) (h1 : (offSignature ⟨c :: q, false, false⟩).1.fail = false) (h2 : (offSignature ⟨c :: q, false, false⟩).2 = false) :
    ∃ pre ∈ prefixes, ∃ r, c :: q = pre ++ "OFF".toList ++ r ∧ Insignificant r := by
  have hq := List.takeWhile_append_dropWhile (p := fun c => !isSpace c) (l := q)
  have ht : Tok (c :: q.takeWhile fun c => !isSpace c) := ⟨by simp, fun x hx => by
    rcases List.mem_cons.1 hx with rfl | hx
    · exact hc
    · simpa using mem_take hx⟩
  have hr := readStr_tok (w := []) spaces_nil ht (stop_of q)
  rw [List.nil_append, List.cons_append, hq] at hr
  unfold offSignature at h1 h2
  rw [hr] at h1 h2
  generalize q.dropWhile (fun c => !isSpace c) = r at hq h1 h2
  generalize q.takeWhile (fun c => !isSpace c) = t at hq h1 h2
  simp only [Bool.false_eq_true, if_false] at h1 h2
  split at h1
  · cases h1
  · next hsig =>
    rw [if_neg hsig] at h2
    obtain ⟨pre, hp, he⟩ := prefixes_drop (not_not.1 hsig)
    refine ⟨pre, hp, r, ?_, insignificant_of ?_⟩
    · rw [show pre ++ "OFF".toList = c :: t from he.symm, List.cons_append, hq]
    · by_contra hf
      rw [if_neg (by simpa using hf)] at h1 h2
      rw [optHashEof_fail (by simpa using h2)] at h1
      cases h1

/-- **C71.** No other files are read: the first line that is not blank or a comment has one of these signatures, and nothing else but a comment. -/
theorem C71_only (N : Doubles F) (dflt : D) (t : List Char) (target r : Soup (P3 F) D) (k : Nat) (h : readOff N dflt (of t) target = (true, r, k)) :
    ∃ w pre c ls, (lines (of t)).filter significant = (w ++ (pre ++ "OFF".toList ++ c)) :: ls ∧ Spaces w ∧ pre ∈ prefixes ∧ Insignificant c := by
  unfold readOff at h
  rw [if_neg (by simp [of]), ← offLoop_significant] at h
  have hs : ∀ l ∈ (lines (of t)).filter significant, significant l = true := fun l hl => (List.mem_filter.1 hl).2
  generalize (lines (of t)).filter significant = ls at h hs ⊢
  cases ls with
  | nil => simp [offLoop] at h
  | cons l ls =>
    have hok : (offLine N dflt l ⟨.signature, 0, 0, Soup.empty, 0⟩).1 = true := by
      by_contra hc
      rw [offLoop] at h
      dsimp only at h
      rw [if_neg hc] at h
      simp at h
    have hl := hs l (by simp)
    unfold significant at hl
    split at hl
    · cases hl
    · next c q hd =>
      have hh : c ≠ '#' := by simpa using hl
      have hc := dropWhile_head _ _ hd
      have e := List.takeWhile_append_dropWhile (p := isSpace) (l := l)
      rw [hd] at e
      have hw : Spaces (l.takeWhile isSpace) := fun x hx => mem_take hx
      have ho := optHashEof_tok hw hc hh q
      rw [e] at ho
      have eo : offLine N dflt l ⟨.signature, 0, 0, Soup.empty, 0⟩ = (let z := offSignature ⟨c :: q, false, false⟩
          if z.1.fail then (false, ⟨.signature, 0, 0, Soup.empty, 0⟩) else if z.2 then (false, ⟨.signature, 0, 0, Soup.empty, 0⟩) else (true, ⟨.numbers, 0, 0, Soup.empty, 0⟩)) := by
        unfold offLine
        rw [ho]
        rfl
      have h12 : (offSignature ⟨c :: q, false, false⟩).1.fail = false ∧ (offSignature ⟨c :: q, false, false⟩).2 = false := by
        rw [eo] at hok
        generalize offSignature ⟨c :: q, false, false⟩ = z at hok
        dsimp only at hok
        split at hok
        · cases hok
        · next hf =>
          split at hok
          · cases hok
          · next hb => exact ⟨by simpa using hf, by simpa using hb⟩
      obtain ⟨h1, h2⟩ := h12
      obtain ⟨pre, hp, r, hr, hi⟩ := signature_inv hc h1 h2
      exact ⟨l.takeWhile isSpace, pre, r, ls, by rw [← hr, e], hw, hp, hi⟩

/-- A file with texture coordinates and normals, and two that are not read. -/
example : "STN".toList ∈ prefixes ∧ (readOff natDoubles () (of "STNOFF # torus\n0 0 0\n".toList) square).1 = true ∧ (readOff natDoubles () (of "NSTOFF\n0 0 0\n".toList) square).1 = false ∧
    (readOff natDoubles () (of "OFF BINARY\n0 0 0\n".toList) square).1 = false := by decide +kernel

/-! ## Plus signs -/

/-- A number with or without a plus sign. -/
def plus (b : Bool) (w : List Char) : List Char := if b then '+' :: w else w

/-- A word that does not begin with a plus sign. -/
def Unsigned (w : List Char) : Prop := Tok w ∧ ∀ r, w ≠ '+' :: r

theorem plus_tok {w : List Char} (h : Unsigned w) (b : Bool) : Tok (plus b w) := by
  unfold plus
  split
  · exact ⟨by simp, fun c hc => (List.mem_cons.1 hc).elim (fun e => e ▸ rfl) (h.1.2 c)⟩
  · exact h.1

theorem drop_plus {w : List Char} (h : Unsigned w) (b : Bool) : dropPlus (plus b w) = w := by
  unfold plus
  split
  · rfl
  · unfold dropPlus
    split
    · next r => exact absurd rfl (h.2 r)
    · rfl

theorem readDouble_plus (N : Doubles F) {s w r : List Char} (hs : Spaces s) (h : Unsigned w) (hr : Stop r) (b : Bool) (old : F) :
    readDouble N ⟨s ++ (plus b w ++ r), false, false⟩ old = (⟨r, r.isEmpty, (N.parse w).isNone⟩, (N.parse w).getD old) := by
  unfold readDouble
  rw [readStr_tok hs (plus_tok h b) hr]
  dsimp only
  rw [if_neg (by simp), drop_plus h]
  cases N.parse w <;> rfl

/-- **C72.** A plus sign in front of a coordinate makes no difference, whatever the format: numbers are read after an optional plus sign. -/
theorem C72_coordinate (N : Doubles F) {s w r : List Char} (hs : Spaces s) (h : Unsigned w) (hr : Stop r) (old : F) :
    readDouble N ⟨s ++ ('+' :: w ++ r), false, false⟩ old = readDouble N ⟨s ++ (w ++ r), false, false⟩ old :=
  (readDouble_plus N hs h hr true old).trans (readDouble_plus N hs h hr false old).symm

/-- The text of a vertex in an OBJ file, with or without plus signs. -/
def vertexLine (x y z : List Char) (b c d : Bool) : List Char := 'v' :: ' ' :: (plus b x ++ ' ' :: (plus c y ++ ' ' :: plus d z))

/-- Plus signs are put in front of coordinates. -/
inductive Signed : List Char → List Char → Prop
  | refl (t) : Signed t t
  | vertex (x y z b c d t t') : Unsigned x → Unsigned y → Unsigned z → Signed t t' → Signed (vertexLine x y z false false false ++ '\n' :: t) (vertexLine x y z b c d ++ '\n' :: t')
  | line (l t t') : '\n' ∉ l → Signed t t' → Signed (l ++ '\n' :: t) (l ++ '\n' :: t')

theorem readPoint_plus (N : Doubles F) {s x y z : List Char} (hs : Spaces s) (hx : Unsigned x) (hy : Unsigned y) (hz : Unsigned z) (b c d : Bool) :
    readPoint N ⟨s ++ (plus b x ++ ' ' :: (plus c y ++ ' ' :: plus d z)), false, false⟩ = (N.parse x).bind fun p => (N.parse y).bind fun q => (N.parse z).map fun r => (p, q, r) := by
  have bad : ∀ (r : List Char) (e : Bool) (old : F), readDouble N ⟨r, e, true⟩ old = (⟨r, e, true⟩, old) := by
    intro r e old
    unfold readDouble
    rw [readStr_fail (by simp [good])]
    rfl
  unfold readPoint
  rw [readDouble_plus N hs hx (stop_space _)]
  cases N.parse x with
  | none => simp [bad]
  | some p =>
    dsimp only [Option.isNone, Option.getD, Option.bind]
    rw [show (⟨' ' :: (plus c y ++ ' ' :: plus d z), (' ' :: (plus c y ++ ' ' :: plus d z)).isEmpty, false⟩ : IS) = ⟨[' '] ++ (plus c y ++ ' ' :: plus d z), false, false⟩ from rfl,
      readDouble_plus N spaces_one hy (stop_space _)]
    cases N.parse y with
    | none => simp [bad]
    | some q =>
      dsimp only [Option.isNone, Option.getD, Option.bind]
      have hd : readDouble N ⟨' ' :: plus d z, false, false⟩ N.zero = (⟨[], true, (N.parse z).isNone⟩, (N.parse z).getD N.zero) := by
        have := readDouble_plus N spaces_one hz stop_nil d N.zero
        rwa [List.append_nil] at this
      simp only [List.isEmpty_cons, hd]
      cases N.parse z <;> simp

theorem objLine_plus (N : Doubles F) (dflt : D) {x y z : List Char} (hx : Unsigned x) (hy : Unsigned y) (hz : Unsigned z) (b c d : Bool) (a : Acc F D) :
    objLine N dflt (vertexLine x y z b c d) a = objLine N dflt (vertexLine x y z false false false) a := by
  have key : ∀ b c d, objLine N dflt (vertexLine x y z b c d) a =
      match (N.parse x).bind fun p => (N.parse y).bind fun q => (N.parse z).map fun r => (p, q, r) with
      | none => (false, a)
      | some p => (true, ⟨(a.soup.addVertex p).1, a.stored + 1⟩) := by
    intro b c d
    have ht : Tok ['v'] := ⟨by simp, by decide⟩
    have ho : (of (vertexLine x y z b c d)).optHashEof = ⟨vertexLine x y z b c d, false, true⟩ := optHashEof_tok (w := []) spaces_nil (by decide) (by decide) _
    have hr : readStr ⟨vertexLine x y z b c d, false, false⟩ = (⟨[' '] ++ (plus b x ++ ' ' :: (plus c y ++ ' ' :: plus d z)), false, false⟩, ['v']) :=
      readStr_tok (w := []) spaces_nil ht (stop_space _)
    have eo : objLine N dflt (vertexLine x y z b c d) a = (let w := readStr ⟨vertexLine x y z b c d, false, false⟩
        if w.2 = ['v'] then
          match readPoint N w.1 with
          | none => (false, a)
          | some p => (true, ⟨(a.soup.addVertex p).1, a.stored + 1⟩)
        else if w.2 = ['f'] then
          let z := objIndices a.soup.points.length (w.1.rest.length + 1) w.1 []
          if z.1 then (true, ⟨addFaces a.soup dflt (fanFaces z.2), a.stored + z.2.length⟩) else (false, ⟨a.soup, a.stored + z.2.length⟩)
        else (true, a)) := by
      unfold objLine
      rw [ho]
      rfl
    rw [eo, hr]
    dsimp only
    rw [if_pos rfl, readPoint_plus N spaces_one hx hy hz]
    generalize ((N.parse x).bind fun p => (N.parse y).bind fun q => (N.parse z).map fun r => (p, q, r)) = o
    cases o <;> rfl
  rw [key, key]

theorem vertexLine_nl {x y z : List Char} (hx : Unsigned x) (hy : Unsigned y) (hz : Unsigned z) (b c d : Bool) : '\n' ∉ vertexLine x y z b c d := by
  have key : ∀ {w}, Unsigned w → ∀ b, '\n' ∉ plus b w := fun h b hm => by
    have := (plus_tok h b).2 _ hm
    revert this; decide
  unfold vertexLine
  simp [key hx, key hy, key hz]

/-- **C72.** Plus signs in front of coordinates of an OBJ file make no difference. -/
theorem C72_obj (N : Doubles F) (dflt : D) {t t' : List Char} (h : Signed t t') (target : Soup (P3 F) D) : readObj N dflt (of t') target = readObj N dflt (of t) target := by
  have key : ∀ a : Acc F D, objLoop N dflt (lines (of t')) a = objLoop N dflt (lines (of t)) a := by
    induction h with
    | refl => exact fun _ => rfl
    | vertex x y z b c d t t' hx hy hz _ ih =>
      intro a
      rw [lines_cons (vertexLine_nl hx hy hz _ _ _), lines_cons (vertexLine_nl hx hy hz _ _ _), objLoop, objLoop, objLine_plus N dflt hx hy hz b c d]
      simp only [ih]
    | line l t t' hl _ ih =>
      intro a
      rw [lines_cons hl, lines_cons hl, objLoop, objLoop]
      simp only [ih]
  unfold readObj
  rw [if_neg (by simp [of]), if_neg (by simp [of]), key]

/-- One plus sign, but not two. -/
example : Signed "v 1 2 3\n".toList "v +1 2 +3\n".toList :=
  .vertex ['1'] ['2'] ['3'] true false true [] [] ⟨⟨by simp, by decide⟩, by simp⟩ ⟨⟨by simp, by decide⟩, by simp⟩ ⟨⟨by simp, by decide⟩, by simp⟩ (.refl [])
example : readObj natDoubles () (of "v +1 2 +3\n".toList) Soup.empty = (true, ⟨[(1, 2, 3)], [], []⟩, 1) ∧ (readObj natDoubles () (of "v ++1 2 3\n".toList) square).1 = false := by decide +kernel

end Kigumi.Text
