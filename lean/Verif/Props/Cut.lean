import Verif.Props.ProgramText

/-!
# C96: files that have been cut

A device that is full keeps the beginning of a file (C53). What readers make of it depends on the format.
-/
namespace Kigumi.Props
open Kigumi Kigumi.Text IS Ply Mesh

variable {F P D : Type}

/-- The beginning of a text: lines, and the beginning of a line. -/
theorem take_textOf (L : List (List Char)) (n : Nat) (hn : n < (textOf L).length) : ∃ L1 l L2 p q, L = L1 ++ l :: L2 ∧ l = p ++ q ∧ (textOf L).take n = textOf L1 ++ p ∧ n = (textOf L1).length + p.length := by
  induction L generalizing n with
  | nil => simp [textOf] at hn
  | cons l L ih =>
    have e : textOf (l :: L) = l ++ '\n' :: textOf L := by simp [textOf]
    by_cases hl : n ≤ l.length
    · refine ⟨[], l, L, l.take n, l.drop n, rfl, (List.take_append_drop n l).symm, ?_, ?_⟩
      · rw [e, List.take_append_of_le_length hl]
        simp [textOf]
      · simp [textOf, hl]
    · rw [e, List.length_append, List.length_cons] at hn
      obtain ⟨L1, l', L2, p, q, h1, h2, h3, h4⟩ := ih (n - l.length - 1) (by omega)
      refine ⟨l :: L1, l', L2, p, q, by rw [h1]; rfl, h2, ?_, ?_⟩
      · have e1 : textOf (l :: L1) = l ++ '\n' :: textOf L1 := by simp [textOf]
        rw [e, e1, List.take_append, List.take_of_length_le (by omega), show n - l.length = (n - l.length - 1) + 1 by omega, List.take_succ_cons, h3]
        simp
      · have e1 : textOf (l :: L1) = l ++ '\n' :: textOf L1 := by simp [textOf]
        rw [e1, List.length_append, List.length_cons]
        omega

/-- Its lines. -/
theorem linesOf_cut {L1 : List (List Char)} {p : List Char} (h1 : ∀ l ∈ L1, '\n' ∉ l) (hp : '\n' ∉ p) : LinesOf (textOf L1 ++ p) (if p = [] then L1 else L1 ++ [p]) := by
  split
  · next h => subst h; exact ⟨h1, .inl (by simp)⟩
  · next h =>
    refine ⟨fun l hl => ?_, .inr ⟨L1, p, rfl, h, rfl⟩⟩
    rcases List.mem_append.1 hl with hl | hl
    · exact h1 l hl
    · rw [List.mem_singleton.1 hl]; exact hp

theorem prefix_append {p a b : List Char} (h : p <+: a ++ b) : p <+: a ∨ ∃ p', p = a ++ p' ∧ p' <+: b := by
  by_cases hl : p.length ≤ a.length
  · exact .inl (List.prefix_of_prefix_length_le h (List.prefix_append a b) hl)
  · obtain ⟨p', rfl⟩ := List.prefix_of_prefix_length_le (List.prefix_append a b) h (by omega)
    exact .inr ⟨p', rfl, (List.prefix_append_right_inj a).1 h⟩

theorem decVal_prefix (d e : List Char) : decVal d ≤ decVal (d ++ e) := by
  unfold decVal
  rw [List.foldl_append]
  generalize d.foldl (fun a c => 10 * a + (c.toNat - 48)) 0 = a
  induction e generalizing a with
  | nil => exact Nat.le_refl _
  | cons c e ih => exact Nat.le_trans (by omega) (ih (10 * a + (c.toNat - 48)))

/-- Some numbers. -/
def Nats (ws : List (List Char)) (k : Nat) : Prop := ws.length ≤ k ∧ ∃ f, List.Forall₂ IsNat ws f

theorem Nats.cons {w : List Char} {v k : Nat} {ws : List (List Char)} (hw : IsNat w v) (h : Nats ws k) : Nats (w :: ws) (k + 1) := by
  obtain ⟨h1, f, h2⟩ := h
  exact ⟨by simpa using h1, v :: f, .cons hw h2⟩

theorem Nats.nil (k : Nat) : Nats [] k := ⟨Nat.zero_le _, [], .nil⟩

theorem Nats.mono {ws : List (List Char)} {k m : Nat} (h : Nats ws k) (hk : k ≤ m) : Nats ws m := ⟨h.1.trans hk, h.2⟩

/-- The beginning of a number is a number. -/
theorem nats_prefix {n : Nat} (hn : n < 2 ^ 64) {p : List Char} (hp : p <+: dec n) : Nats (words p) 1 := by
  by_cases he : p = []
  · subst he; exact Nats.nil 1
  · obtain ⟨q, hq⟩ := hp
    have hd : ∀ c ∈ p, isDigit c = true := fun c hc => dec_digits n c (by rw [← hq]; simp [hc])
    have ht : Tok p := ⟨he, fun c hc => isDigit_not_space (hd c hc)⟩
    rw [words_last ht]
    refine Nats.cons (v := decVal p) ⟨?_, p, .inl rfl, he, hd, digitsValue_eq p⟩ (Nats.nil 0)
    have := decVal_prefix p q
    rw [hq, decVal_dec] at this
    omega

/-- A face whose last number is missing. -/
theorem cut_polygon {f : Tri Nat} (hf : f.a < 2 ^ 64 ∧ f.b < 2 ^ 64) {p q : List Char} (e : polygonLine (triPolygon f) = p ++ q) (hq : (dec f.c).length ≤ q.length) (hp : p ≠ []) : Incomplete (words p) := by
  have e0 : polygonLine (triPolygon f) = ("3".toList ++ ' ' :: (dec f.a ++ ' ' :: (dec f.b ++ [' ']))) ++ dec f.c := by
    unfold polygonLine triPolygon
    simp
    rfl
  have hpre : p <+: "3".toList ++ ' ' :: (dec f.a ++ ' ' :: (dec f.b ++ [' '])) := by
    refine List.prefix_of_prefix_length_le (l₃ := polygonLine (triPolygon f)) ⟨q, e.symm⟩ ⟨dec f.c, e0.symm⟩ ?_
    have := congrArg List.length (e.symm.trans e0)
    rw [List.length_append, List.length_append] at this
    omega
  have ht : Tok "3".toList := tok_of _ (by decide)
  have key : ∃ ws, words p = "3".toList :: ws ∧ Nats ws 2 := by
    rcases prefix_append hpre with h | ⟨p1, rfl, h⟩
    · refine ⟨[], ?_, Nats.nil 2⟩
      have : p = "3".toList := by
        rcases List.prefix_cons_iff.1 h with h | ⟨t, h, h'⟩
        · exact absurd h hp
        · rw [h, List.prefix_nil.1 h']; rfl
      rw [this, words_last ht]
    · rcases List.prefix_cons_iff.1 h with rfl | ⟨p2, rfl, h2⟩
      · exact ⟨[], by rw [List.append_nil, words_last ht], Nats.nil 2⟩
      · refine ⟨words p2, words_next ht p2, ?_⟩
        rcases prefix_append h2 with h2 | ⟨p3, rfl, h3⟩
        · exact (nats_prefix hf.1 h2).mono (by decide)
        · rcases List.prefix_cons_iff.1 h3 with rfl | ⟨p4, rfl, h4⟩
          · rw [List.append_nil]
            exact (nats_prefix hf.1 (List.prefix_refl _)).mono (by decide)
          · rw [words_next (dec_tok _)]
            refine Nats.cons (isNat_dec hf.1) ?_
            rcases prefix_append h4 with h4 | ⟨p5, rfl, h5⟩
            · exact nats_prefix hf.2 h4
            · rcases List.prefix_cons_iff.1 h5 with rfl | ⟨p6, rfl, h6⟩
              · rw [List.append_nil]
                exact nats_prefix hf.2 (List.prefix_refl _)
              · rw [List.prefix_nil.1 h6, words_next (dec_tok _)]
                exact Nats.cons (isNat_dec hf.2) (Nats.nil 0)
  obtain ⟨ws, h1, h2, g, h3⟩ := key
  exact ⟨"3".toList, 3, ws, g, [], by rw [h1, List.append_nil], isNat_three, h3, by omega, .inl rfl⟩

/-- Begins with a character that is neither white space nor the beginning of a comment. -/
def Solid (l : List Char) : Prop := ∃ c r, l = c :: r ∧ isSpace c = false ∧ c ≠ '#'

theorem Solid.significant {l : List Char} (h : Solid l) : significant l = true := by
  obtain ⟨c, r, rfl, h1, h2⟩ := h
  unfold Text.significant
  rw [List.dropWhile_cons, if_neg (by simp [h1])]
  simpa using h2

theorem Solid.prefix {l p : List Char} (h : Solid l) (hp : p <+: l) (hne : p ≠ []) : Solid p := by
  obtain ⟨c, r, rfl, h1, h2⟩ := h
  rcases List.prefix_cons_iff.1 hp with rfl | ⟨t, rfl, -⟩
  · exact absurd rfl hne
  · exact ⟨c, t, rfl, h1, h2⟩

theorem solid_tok {t : List Char} (ht : Tok t) (hh : ∀ c r, t = c :: r → c ≠ '#') (r : List Char) : Solid (t ++ r) := by
  cases t with
  | nil => exact absurd rfl ht.1
  | cons c t => exact ⟨c, t ++ r, rfl, ht.2 c (by simp), hh c t rfl⟩

theorem textOf_length_cut {L1 L2 : List (List Char)} {p q : List Char} : (textOf (L1 ++ (p ++ q) :: L2)).length = (textOf L1).length + p.length + q.length + 1 + (textOf L2).length := by
  simp [textOf]
  omega

/-- **C96, OFF.** What is left of a file of a mesh is refused, unless only the last number is incomplete, or the end of the line is missing. Missing: that the file is refused if the last number has lost some of its digits, which is false (`C96_off_false`). -/
theorem C96_off_partial {N : Doubles F} (hN : N.Lawful) (dbl : P → P3 F) (t : Soup P D) (ht : Bits64 t) (hr : InRange t) {fs : List (Tri Nat)} {f : Tri Nat} (hf : t.faces = fs ++ [f]) {n : Nat} (hn : n + (dec f.c).length < (writeOff N dbl t).length)
    {E : Type} (dflt : E) (target : Soup (P3 F) E) : ∃ k, readOff N dflt (of ((writeOff N dbl t).take n)) target = (false, target, k) := by
  have hfm : f ∈ t.faces := by rw [hf]; simp
  have hnv : 0 < t.points.length := by have := hr f hfm; omega
  rw [writeOff_text, offText] at hn ⊢
  set cl := dec (t.points.map dbl).length ++ ' ' :: (dec (t.faces.map triPolygon).length ++ " 0".toList) with hcl
  have hcw : words cl = [dec t.points.length, dec t.faces.length, "0".toList] := by
    rw [hcl, words_next (dec_tok _), List.length_map, List.length_map, words_tok (dec_tok _) (fun c r h => by injection h with h _; subst h; rfl)]
    rfl
  set V := (t.points.map dbl).map (pointLine N) with hV
  have hgood : ∀ l ∈ ["OFF".toList, cl] ++ V ++ (t.faces.map triPolygon).map polygonLine, '\n' ∉ l ∧ Solid l := by
    intro l hl
    simp only [hV, List.mem_append, List.mem_cons, List.not_mem_nil, or_false, List.mem_map] at hl
    rcases hl with ((rfl | rfl) | ⟨p, -, rfl⟩) | ⟨_, ⟨f, -, rfl⟩, rfl⟩
    · exact ⟨by decide, 'O', "FF".toList, rfl, by decide, by decide⟩
    · refine ⟨?_, solid_tok (dec_tok _) (digit_hash _) _⟩
      simp only [hcl, List.mem_append, List.mem_cons, not_or]
      exact ⟨no_newline (dec_tok _), by decide, no_newline (dec_tok _), by decide⟩
    · exact ⟨(point_line hN p).1, solid_tok (hN.tok _) (fun c r h => (hN.head _ c r h).2) _⟩
    · exact ⟨(polygon_line f).1, solid_tok (dec_tok _) (digit_hash _) _⟩
  have hVl : V.length = t.points.length := by simp [hV]
  have hFl : ((t.faces.map triPolygon).map polygonLine).length = t.faces.length := by simp
  have hFe : (t.faces.map triPolygon).map polygonLine = (fs.map triPolygon).map polygonLine ++ [polygonLine (triPolygon f)] := by rw [hf]; simp
  generalize (t.faces.map triPolygon).map polygonLine = W at hgood hn hFl hFe ⊢
  obtain ⟨L1, l, L2, p, q, e1, rfl, e3, e4⟩ := take_textOf (["OFF".toList, cl] ++ V ++ W) n (by omega)
  have g1 : ∀ x ∈ L1, '\n' ∉ x ∧ Solid x := fun x hx => hgood x (by rw [e1]; simp [hx])
  have gl := hgood (p ++ q) (by rw [e1]; simp)
  have hls := linesOf_cut (fun x hx => (g1 x hx).1) (p := p) (fun h => gl.1 (by simp [h]))
  rw [e3]
  rcases hread : readOff N dflt (of (textOf L1 ++ p)) target with ⟨o, r, k⟩
  cases o with
  | false =>
    have := C47_off N dflt (of (textOf L1 ++ p)) target (by rw [hread])
    rw [hread] at this
    exact ⟨k, by rw [← this]⟩
  | true =>
    exfalso
    obtain ⟨sg, l, nv, nf, vl, fl, ps, polys, h1, h2, h3, h4, -, -, -, -⟩ := C50_off N dflt _ target r k hread
    have hfilter : (lines (of (textOf L1 ++ p))).filter significant = L1 ++ (if p = [] then [] else [p]) := by
      rw [lines_of hls, show (if p = [] then L1 else L1 ++ [p]) = L1 ++ (if p = [] then [] else [p]) by split <;> simp]
      refine List.filter_eq_self.2 fun x hx => ?_
      rcases List.mem_append.1 hx with hx | hx
      · exact (g1 x hx).2.significant
      · split at hx
        · cases hx
        · next hp => rw [List.mem_singleton.1 hx]; exact (gl.2.prefix (List.prefix_append p q) hp).significant
    have hfilter' := h1.symm.trans hfilter
    match L1, e1, e4, hls, hread, hfilter, hfilter' with
    | [], _, _, _, _, _, hc =>
      have := congrArg List.length hc
      split at this <;> simp at this
    | [x], e1, _, _, _, _, hc =>
      have hcl' : cl = p ++ q := by
        injection e1 with _ e1
        injection e1
      by_cases hp : p = []
      · rw [if_pos hp] at hc
        have := congrArg List.length hc
        simp at this
      · rw [if_neg hp] at hc
        injection hc with _ hc
        injection hc with hc1 hc2
        have hv0 : nv = 0 := by
          have := congrArg List.length hc2
          simp at this
          simp [← h3, this.1]
        subst hc1
        obtain ⟨c1, c2, c3⟩ := h2
        have hat := at_of l
        rcases prefix_append (show l <+: dec (t.points.map dbl).length ++ ' ' :: (dec (t.faces.map triPolygon).length ++ " 0".toList) from ⟨q, hcl'.symm⟩) with h | ⟨p', rfl, h⟩
        · obtain ⟨n1, g, n2⟩ := nats_prefix (by rw [List.length_map]; exact ht.1) h
          cases hw : words l with
          | nil =>
            rw [hw] at hat
            rw [readSize_failed (hat.readSize_nil 0)] at c3
            cases c3
          | cons w ws =>
            rw [hw] at n1 n2 hat
            cases n2 with
            | cons m1 m2 =>
              obtain ⟨s', m3, m4⟩ := hat.readSize m1 0
              have : ws = [] := by simpa using n1
              subst this
              rw [m3, m4.readSize_nil 0] at c3
              cases c3
        · rcases List.prefix_cons_iff.1 h with rfl | ⟨p2, rfl, -⟩
          · rw [List.append_nil, words_last (dec_tok _), List.length_map] at hat
            obtain ⟨s', m3, m4⟩ := hat.readSize (isNat_dec ht.1) 0
            rw [List.append_nil, List.length_map, m3] at c1
            dsimp only at c1
            omega
          · rw [words_next (dec_tok _), List.length_map] at hat
            obtain ⟨s', m3, m4⟩ := hat.readSize (isNat_dec ht.1) 0
            rw [List.length_map, m3] at c1
            dsimp only at c1
            omega
    | x :: y :: L1, e1, e4, hls, hread, hfilter, hc =>
      injection e1 with ex e1
      injection e1 with ey e1
      subst ex ey
      replace e1 : V ++ W = L1 ++ (p ++ q) :: L2 := e1
      injection hc with hc1 hc
      injection hc with hc2 hc
      replace hc : vl ++ fl = L1 ++ (if p = [] then [] else [p]) := hc
      subst hc2
      obtain ⟨c1, c2, c3⟩ := h2
      have hat := at_of cl
      rw [hcw] at hat
      obtain ⟨s', m3, m4⟩ := hat.readSize (isNat_dec ht.1) 0
      obtain ⟨s'', m5, m6⟩ := m4.readSize (isNat_dec ht.2.1) 0
      rw [m3] at c1 c2
      rw [m5] at c2
      dsimp only at c1 c2
      have len1 := congrArg List.length hc
      have len2 := congrArg List.length e1
      simp only [List.length_append, List.length_cons, List.nil_append] at len1 len2
      have hpne : p ≠ [] := by
        intro h0
        rw [if_pos h0] at len1
        simp at len1
        omega
      rw [if_neg hpne] at len1 hc hfilter
      have hL2 : L2 = [] := by
        refine List.length_eq_zero_iff.1 ?_
        simp at len1
        omega
      subst hL2
      have e1' : (V ++ (fs.map triPolygon).map polygonLine) ++ [polygonLine (triPolygon f)] = L1 ++ [p ++ q] := by
        rw [← e1, hFe]; simp
      obtain ⟨u1, u2⟩ := List.append_inj' e1' rfl
      have u3 : polygonLine (triPolygon f) = p ++ q := by injection u2
      have hq : (dec f.c).length ≤ q.length := by
        have tl := textOf_length_cut (L1 := "OFF".toList :: cl :: L1) (L2 := []) (p := p) (q := q)
        have e5 : ["OFF".toList, cl] ++ V ++ W = ("OFF".toList :: cl :: L1) ++ (p ++ q) :: [] := by
          rw [List.append_assoc]
          show "OFF".toList :: cl :: (V ++ W) = "OFF".toList :: cl :: (L1 ++ [p ++ q])
          rw [← e1]
        rw [e5, tl] at hn
        simp [textOf] at hn e4
        omega
      have hinc := cut_polygon (f := f) ⟨(ht.2.2 f hfm).1, (ht.2.2 f hfm).2.1⟩ u3 hq hpne
      obtain ⟨k', hk'⟩ := C90_off_partial N dflt hls (sl := "OFF".toList) (cl := cl) (vl := V) (fl := (fs.map triPolygon).map polygonLine ++ [p]) (by
          rw [← lines_of hls, hfilter]
          show "OFF".toList :: cl :: (L1 ++ [p]) = _
          rw [← u1]; simp) hcw (by rw [hVl]; exact isNat_dec ht.1) ⟨p, by simp, hinc⟩ target
      rw [hread] at hk'
      cases hk'

/-! ## PLY -/

/-- The header of a written PLY file. -/
def plyHdr (nv nf : Nat) : List (List Char) :=
  ["ply".toList, "format ascii 1.0".toList, "element vertex ".toList ++ dec nv, "property float x".toList, "property float y".toList, "property float z".toList, "element face ".toList ++ dec nf, "property list uchar int vertex_index".toList] ++ ["end_header".toList]

theorem header_plyHdr {nv nf : Nat} (hv : nv < 2 ^ 64) (hf : nf < 2 ^ 64) : Header IsNat (plyHdr nv nf) (plyElements nv nf) := by
  have w1 : words ("element vertex ".toList ++ dec nv) = ["element".toList, "vertex".toList, dec nv] := by
    rw [show "element vertex ".toList ++ dec nv = "element".toList ++ ' ' :: ("vertex".toList ++ ' ' :: dec nv) from rfl, words_next (tok_of _ (by decide)), words_next (tok_of _ (by decide)), words_last (dec_tok _)]
  have w2 : words ("element face ".toList ++ dec nf) = ["element".toList, "face".toList, dec nf] := by
    rw [show "element face ".toList ++ dec nf = "element".toList ++ ' ' :: ("face".toList ++ ' ' :: dec nf) from rfl, words_next (tok_of _ (by decide)), words_next (tok_of _ (by decide)), words_last (dec_tok _)]
  refine ⟨["ply".toList, "format ascii 1.0".toList, "element vertex ".toList ++ dec nv, "property float x".toList, "property float y".toList, "property float z".toList,
      "element face ".toList ++ dec nf, "property list uchar int vertex_index".toList], "end_header".toList, [], [[["element".toList, "vertex".toList, dec nv], ["property".toList, "float".toList, "x".toList], ["property".toList, "float".toList, "y".toList], ["property".toList, "float".toList, "z".toList]],
      [["element".toList, "face".toList, dec nf], ["property".toList, "list".toList, "uchar".toList, "int".toList, "vertex_index".toList]]], rfl, by decide +kernel, .cons (.intro _ (isNat_dec hv)) (.cons (.intro _ (isNat_dec hf)) .nil), ?_, ?_⟩
  · intro e he p hp
    simp only [plyElements, List.mem_cons, List.not_mem_nil, or_false] at he
    rcases he with rfl | rfl <;> simp only [plyVertexProps, plyFaceProps, List.mem_cons, List.not_mem_nil, or_false] at hp
    · rcases hp with rfl | rfl | rfl <;> decide
    · subst hp; decide
  · simp only [List.map_cons, List.map_nil]
    rw [w1, w2]
    rfl

/-- A line that begins with a word. -/
theorem first_word {l w : List Char} {ws : List (List Char)} (hl : ∀ c r, l = c :: r → isSpace c = false) (h : words l = w :: ws) : w <+: l := by
  rcases split_word l with hs | ⟨a, t, r, ha, ht, hr, rfl⟩
  · have := words_spaces hs []
    rw [List.append_nil, h] at this
    cases this
  · cases a with
    | cons c a => exact absurd (ha c (by simp)) (by simp [hl c _ rfl])
    | nil =>
      rw [List.nil_append, words_tok ht hr] at h
      injection h with h _
      subst h
      exact List.prefix_append _ _

/-- Before the end of the header there is no other one. -/
theorem no_end {nv nf : Nat} {l p : List Char} {ws : List (List Char)} (hl : l ∈ (plyHdr nv nf).dropLast) (hp : p <+: l) : words p ≠ "end_header".toList :: ws := by
  intro h
  have hs : ∀ c r, p = c :: r → isSpace c = false := by
    rintro c r rfl
    obtain ⟨q, hq⟩ := hp
    have hd : ∀ l ∈ (plyHdr nv nf).dropLast, ∃ d t, l = d :: t ∧ isSpace d = false := by
      simp only [plyHdr, List.dropLast_concat]
      simp only [List.forall_mem_cons]
      exact ⟨⟨_, _, rfl, rfl⟩, ⟨_, _, rfl, rfl⟩, ⟨_, _, rfl, rfl⟩, ⟨_, _, rfl, rfl⟩, ⟨_, _, rfl, rfl⟩, ⟨_, _, rfl, rfl⟩, ⟨_, _, rfl, rfl⟩, ⟨_, _, rfl, rfl⟩, by simp⟩
    obtain ⟨d, t, rfl, hd⟩ := hd l hl
    injection hq with hq _
    rw [hq]; exact hd
  have h1 := (first_word hs h).trans hp
  have hd : ∀ l ∈ (plyHdr nv nf).dropLast, l.take 2 ≠ "en".toList := by
    simp only [plyHdr, List.dropLast_concat]
    simp only [List.forall_mem_cons]
    refine ⟨?_, ?_, ?_, ?_, ?_, ?_, ?_, ?_, by simp⟩
    · decide
    · decide
    · show "el".toList ≠ _; decide
    · decide
    · decide
    · decide
    · show "el".toList ≠ _; decide
    · decide
  obtain ⟨q, rfl⟩ := h1
  exact hd _ hl rfl

/-- **C96, PLY.** What is left of a file of a mesh is refused, unless only the last number is incomplete, or the end of the line is missing. Missing: as in `C96_off_partial`. -/
theorem C96_ply_partial {N : Doubles F} (hN : N.Lawful) (dbl : P → P3 F) (t : Soup P D) (ht : Bits64 t) {fs : List (Tri Nat)} {f : Tri Nat} (hf : t.faces = fs ++ [f]) {n : Nat} (hn : n + (dec f.c).length < (writePly N dbl t).length)
    {E : Type} (dflt : E) (target : Soup (P3 F) E) : ∃ k, readPly N dflt (of ((writePly N dbl t).take n)) target = (false, target, k) := by
  have hfm : f ∈ t.faces := by rw [hf]; simp
  have hfn : 0 < t.faces.length := List.length_pos_of_mem hfm
  have htext : writePly N dbl t = textOf (plyHdr t.points.length t.faces.length ++ ((t.points.map dbl).map (pointLine N) ++ (t.faces.map triPolygon).map polygonLine)) := by
    rw [writePly_text, plyText, List.length_map, List.length_map, List.append_assoc]
    rfl
  rw [htext] at hn ⊢
  clear htext
  set V := (t.points.map dbl).map (pointLine N) with hV
  have hhdr := header_plyHdr ht.1 ht.2.1
  have hgood : ∀ l ∈ plyHdr t.points.length t.faces.length ++ (V ++ (t.faces.map triPolygon).map polygonLine), '\n' ∉ l := by
    intro l hl
    simp only [plyHdr, hV, List.mem_append, List.mem_cons, List.not_mem_nil, or_false, List.mem_map] at hl
    rcases hl with ((rfl | rfl | rfl | rfl | rfl | rfl | rfl | rfl) | rfl) | ⟨p, -, rfl⟩ | ⟨_, ⟨f, -, rfl⟩, rfl⟩
    · decide
    · decide
    · rw [List.mem_append, not_or]; exact ⟨by decide, no_newline (dec_tok _)⟩
    · decide
    · decide
    · decide
    · rw [List.mem_append, not_or]; exact ⟨by decide, no_newline (dec_tok _)⟩
    · decide
    · decide
    · exact (point_line hN p).1
    · exact (polygon_line f).1
  have hVl : V.length = t.points.length := by simp [hV]
  have hFl : ((t.faces.map triPolygon).map polygonLine).length = t.faces.length := by simp
  have hFe : (t.faces.map triPolygon).map polygonLine = (fs.map triPolygon).map polygonLine ++ [polygonLine (triPolygon f)] := by rw [hf]; simp
  generalize (t.faces.map triPolygon).map polygonLine = W at hgood hn hFl hFe ⊢
  have hH : plyHdr t.points.length t.faces.length = (plyHdr t.points.length t.faces.length).dropLast ++ ["end_header".toList] := by
    simp [plyHdr]
  have hHl : (plyHdr t.points.length t.faces.length).length = 9 := rfl
  have hsum : ((plyElements t.points.length t.faces.length).map Element.count).sum = t.points.length + t.faces.length := by simp [plyElements]
  have hne := @no_end t.points.length t.faces.length
  generalize plyHdr t.points.length t.faces.length = H at hgood hn hhdr hH hHl hne ⊢
  obtain ⟨L1, l, L2, p, q, e1, rfl, e3, e4⟩ := take_textOf (H ++ (V ++ W)) n (by omega)
  have g1 : ∀ x ∈ L1, '\n' ∉ x := fun x hx => hgood x (by rw [e1]; simp [hx])
  have gl := hgood (p ++ q) (by rw [e1]; simp)
  have hls := linesOf_cut g1 (p := p) (fun h => gl (by simp [h]))
  rw [show (if p = [] then L1 else L1 ++ [p]) = L1 ++ (if p = [] then [] else [p]) by split <;> simp] at hls
  rw [e3]
  rcases hread : readPly N dflt (of (textOf L1 ++ p)) target with ⟨o, r, k⟩
  cases o with
  | false =>
    have := C47_ply N dflt (of (textOf L1 ++ p)) target (by rw [hread])
    rw [hread] at this
    exact ⟨k, by rw [← this]⟩
  | true =>
    exfalso
    have key : ∃ B, L1 ++ (if p = [] then [] else [p]) = H ++ B := by
      obtain ⟨hdr, els, parts, -, -, -, -, h1, ⟨init, x, last, decls, rfl, h2, -⟩, -⟩ := C88_accepts N dflt hread
      have hx : x ∈ L1 ++ (if p = [] then [] else [p]) := by
        rw [← lines_of hls, lines_of h1]; simp
      rcases Nat.lt_or_ge L1.length 9 with hlt | hge
      · have hpre : L1 <+: H.dropLast := by
          have u1 : L1 <+: H ++ (V ++ W) := ⟨_, e1.symm⟩
          have u2 : H.dropLast <+: H ++ (V ++ W) := (List.dropLast_prefix H).trans (List.prefix_append _ _)
          exact List.prefix_of_prefix_length_le u1 u2 (by rw [List.length_dropLast]; omega)
        rcases List.mem_append.1 hx with hx | hx
        · exact absurd h2 (hne (hpre.subset hx) (List.prefix_refl _))
        · split at hx
          · cases hx
          · next hp =>
            obtain rfl := List.mem_singleton.1 hx
            obtain ⟨M, hM⟩ := hpre
            cases M with
            | cons m M =>
              have hm : m = x ++ q := by
                rw [hH, ← hM] at e1
                have := List.append_cancel_left ((by simpa using e1 : L1 ++ (m :: (M ++ "end_header".toList :: (V ++ W))) = L1 ++ (x ++ q) :: L2))
                injection this
              exact absurd h2 (hne (show m ∈ H.dropLast by rw [← hM]; simp) (hm ▸ List.prefix_append _ _))
            | nil =>
              rw [List.append_nil] at hM
              have hm : "end_header".toList = x ++ q := by
                rw [hH, ← hM] at e1
                have := List.append_cancel_left ((by simpa using e1 : L1 ++ ("end_header".toList :: (V ++ W)) = L1 ++ (x ++ q) :: L2))
                injection this
              have hs : ∀ c r, x = c :: r → isSpace c = false := by
                rintro c r rfl
                injection hm with hm _
                rw [← hm]; rfl
              obtain ⟨y, hy⟩ := first_word hs h2
              have : x = "end_header".toList := by
                have := congrArg List.length hm
                have l2 := congrArg List.length hy
                rw [List.length_append] at this l2
                have : y = [] := List.length_eq_zero_iff.1 (by omega)
                rw [← hy, this, List.append_nil]
              refine ⟨[], ?_⟩
              rw [if_neg hp, List.append_nil, hM, this]
              exact hH.symm
      · obtain ⟨B, rfl⟩ : H <+: L1 := List.prefix_of_prefix_length_le (List.prefix_append H (V ++ W)) ⟨_, e1.symm⟩ (by omega)
        exact ⟨B ++ if p = [] then [] else [p], by simp⟩
    obtain ⟨B, hB⟩ := key
    rw [hB] at hls
    have hBl : B.length = t.points.length + t.faces.length := by
      by_contra hc
      obtain ⟨k', hk'⟩ := C88_refuses N dflt hls hhdr (.inr (by rw [hsum]; exact hc)) target
      rw [hread] at hk'
      cases hk'
    have len1 := congrArg List.length hB
    have len2 := congrArg List.length e1
    simp only [List.length_append, List.length_cons] at len1 len2
    have hpne : p ≠ [] := by
      intro h0
      rw [if_pos h0, List.length_nil] at len1
      omega
    rw [if_neg hpne] at len1 hB
    rw [List.length_singleton] at len1
    have hL2 : L2 = [] := List.length_eq_zero_iff.1 (by omega)
    subst hL2
    have e1' : (H ++ (V ++ (fs.map triPolygon).map polygonLine)) ++ [polygonLine (triPolygon f)] = L1 ++ [p ++ q] := by
      rw [← e1, hFe]; simp
    obtain ⟨u1, u2⟩ := List.append_inj' e1' rfl
    have u3 : polygonLine (triPolygon f) = p ++ q := by injection u2
    have hq : (dec f.c).length ≤ q.length := by
      rw [e1, textOf_length_cut] at hn
      simp [textOf] at hn e4
      omega
    have hinc := cut_polygon (f := f) ⟨(ht.2.2 f hfm).1, (ht.2.2 f hfm).2.1⟩ u3 hq hpne
    have hB' : B = [V, (fs.map triPolygon).map polygonLine ++ [p]].flatten := by
      rw [← u1] at hB
      have : V ++ ((fs.map triPolygon).map polygonLine ++ [p]) = B := List.append_cancel_left ((by simpa using hB : H ++ (V ++ ((fs.map triPolygon).map polygonLine ++ [p])) = H ++ B))
      rw [← this]; simp
    rw [hB'] at hls
    obtain ⟨k', hk'⟩ := C90_ply_partial N dflt (pre := []) (post := []) hls hhdr (.cons hVl (.cons (by
        show _ = t.faces.length
        rw [hf]; simp) .nil)) (ply_needed _ _) (show _ = some ((fs.map triPolygon).map polygonLine ++ [p]) from rfl) (show plyFaceProps = _ from rfl) ply_first.2.2.2 ⟨p, by simp, _, .nil _, hinc⟩ target
    rw [hread] at hk'
    cases hk'

/-! ## What remains -/

theorem decLoop_fuel {n m v : Nat} (hn : v < n) (hm : v < m) : decLoop n v = decLoop m v := by
  induction n generalizing m v with
  | zero => omega
  | succ n ih =>
    cases m with
    | zero => omega
    | succ m =>
      unfold decLoop
      split
      · rfl
      · rw [ih (m := m) (by omega) (by omega)]

theorem dec_ten {v : Nat} (h : 10 ≤ v) : ∃ c, dec v = dec (v / 10) ++ [c] := by
  refine ⟨Char.ofNat (48 + v % 10), ?_⟩
  unfold dec
  rw [decLoop.eq_def (v + 1) v]
  dsimp only
  rw [if_neg (by omega), decLoop_fuel (n := v) (m := v / 10 + 1) (by omega) (by omega)]

/-- Without its last digits, a number is a smaller one. -/
theorem dec_digits_cut {v j : Nat} (h : j = 0 ∨ 10 ^ j ≤ v) : ∃ e, dec v = dec (v / 10 ^ j) ++ e ∧ e.length = j := by
  induction j generalizing v with
  | zero => exact ⟨[], by simp, rfl⟩
  | succ j ih =>
    have h10 : 10 ^ (j + 1) ≤ v := h.resolve_left (by omega)
    rw [Nat.pow_succ] at h10
    have hp : 0 < 10 ^ j := Nat.pow_pos (by decide)
    obtain ⟨c, hc⟩ := dec_ten (v := v) (by nlinarith)
    obtain ⟨e, he, hl⟩ := ih (v := v / 10) (.inr ((Nat.le_div_iff_mul_le (by decide)).2 h10))
    refine ⟨e ++ [c], ?_, by simp [hl]⟩
    rw [hc, he, Nat.div_div_eq_div_mul, Nat.pow_succ, Nat.mul_comm, List.append_assoc]

theorem linesOf_open {A : List (List Char)} {l : List Char} (hA : ∀ x ∈ A, '\n' ∉ x) (hl : '\n' ∉ l) (hne : l ≠ []) {ls : List (List Char)} (h : LinesOf (textOf (A ++ [l])) ls) : LinesOf (textOf A ++ l) ls := by
  have hm : ∀ x ∈ A ++ [l], '\n' ∉ x := by
    intro x hx
    rcases List.mem_append.1 hx with hx | hx
    · exact hA x hx
    · rw [List.mem_singleton.1 hx]; exact hl
  have : ls = A ++ [l] := (lines_of h).symm.trans (lines_textOf _ hm)
  rw [this]
  exact ⟨hm, .inr ⟨A, l, rfl, hne, rfl⟩⟩

/-- The mesh where the last number has lost its last `j` digits. -/
def shortened (t : Soup P D) (fs : List (Tri Nat)) (f : Tri Nat) (j : Nat) : Soup P D := ⟨t.points, fs ++ [⟨f.a, f.b, f.c / 10 ^ j⟩], t.data⟩

theorem polygon_digits {f : Tri Nat} {j : Nat} {e : List Char} (h : dec f.c = dec (f.c / 10 ^ j) ++ e) : polygonLine (triPolygon f) = polygonLine (triPolygon ⟨f.a, f.b, f.c / 10 ^ j⟩) ++ e := by
  unfold polygonLine triPolygon
  simp [h]

theorem take_open {A : List (List Char)} {l e : List Char} {j : Nat} (he : e.length = j) : (textOf (A ++ [l ++ e])).take ((textOf (A ++ [l ++ e])).length - 1 - j) = textOf A ++ l := by
  have : textOf (A ++ [l ++ e]) = (textOf A ++ l) ++ (e ++ ['\n']) := by simp [textOf]
  rw [this, List.take_append_of_le_length (by simp; omega), List.take_of_length_le (by simp; omega)]

theorem shortened_bits {t : Soup P D} (ht : Bits64 t) {fs : List (Tri Nat)} {f : Tri Nat} (hf : t.faces = fs ++ [f]) (j : Nat) : Bits64 (shortened t fs f j) := by
  refine ⟨ht.1, ?_, fun g hg => ?_⟩
  · have := ht.2.1
    rw [hf] at this
    simpa [shortened] using this
  · rcases List.mem_append.1 (show g ∈ fs ++ [_] from hg) with hg | hg
    · exact ht.2.2 g (by rw [hf]; simp [hg])
    · rw [List.mem_singleton.1 hg]
      have := ht.2.2 f (by rw [hf]; simp)
      exact ⟨this.1, this.2.1, (Nat.div_le_self _ _).trans_lt this.2.2⟩

/-- **C96, OFF: the other files.** A file that has lost the end of the last line and `j` digits of the last number (not all of them) is the file of another mesh, unless `j` is 0. -/
theorem C96_off_digits {N : Doubles F} (hN : N.Lawful) (dbl : P → P3 F) (t : Soup P D) (ht : Bits64 t) {fs : List (Tri Nat)} {f : Tri Nat} (hf : t.faces = fs ++ [f]) {j : Nat} (hj : j = 0 ∨ 10 ^ j ≤ f.c) :
    IsOff N ((writeOff N dbl t).take ((writeOff N dbl t).length - 1 - j)) (t.points.map dbl) ((fs ++ [(⟨f.a, f.b, f.c / 10 ^ j⟩ : Tri Nat)]).map corners3) := by
  obtain ⟨e, he, hl⟩ := dec_digits_cut hj
  have h := C94_off hN dbl (shortened t fs f j) (shortened_bits ht hf j)
  have hgood : ∀ x ∈ ["OFF".toList, dec t.points.length ++ ' ' :: (dec (fs.length + 1) ++ " 0".toList)] ++ (t.points.map dbl).map (pointLine N) ++ (fs.map triPolygon).map polygonLine, '\n' ∉ x := by
    intro l hl
    simp only [List.mem_append, List.mem_cons, List.not_mem_nil, or_false, List.mem_map] at hl
    rcases hl with ((rfl | rfl) | ⟨p, -, rfl⟩) | ⟨_, ⟨f, -, rfl⟩, rfl⟩
    · decide
    · simp only [List.mem_append, List.mem_cons, not_or]
      exact ⟨no_newline (dec_tok _), by decide, no_newline (dec_tok _), by decide⟩
    · exact (point_line hN p).1
    · exact (polygon_line f).1
  have e1 : writeOff N dbl t = textOf ((["OFF".toList, dec t.points.length ++ ' ' :: (dec (fs.length + 1) ++ " 0".toList)] ++ (t.points.map dbl).map (pointLine N) ++ (fs.map triPolygon).map polygonLine) ++ [polygonLine (triPolygon ⟨f.a, f.b, f.c / 10 ^ j⟩) ++ e]) := by
    rw [← polygon_digits he, writeOff_text, offText, hf]
    simp
  have e2 : writeOff N dbl (shortened t fs f j) = textOf ((["OFF".toList, dec t.points.length ++ ' ' :: (dec (fs.length + 1) ++ " 0".toList)] ++ (t.points.map dbl).map (pointLine N) ++ (fs.map triPolygon).map polygonLine) ++ [polygonLine (triPolygon ⟨f.a, f.b, f.c / 10 ^ j⟩)]) := by
    rw [writeOff_text, offText]
    simp [shortened]
  rw [e1, take_open hl]
  rw [e2] at h
  obtain ⟨ls, sl, cl, vl, fl, a, b, rest, h1, h2⟩ := h
  exact ⟨ls, sl, cl, vl, fl, a, b, rest, linesOf_open hgood (polygon_line _).1 (by unfold polygonLine; simp [dec_ne]) h1, h2⟩

/-- **C96, PLY: the other files.** -/
theorem C96_ply_digits {N : Doubles F} (hN : N.Lawful) (dbl : P → P3 F) (t : Soup P D) (ht : Bits64 t) {fs : List (Tri Nat)} {f : Tri Nat} (hf : t.faces = fs ++ [f]) {j : Nat} (hj : j = 0 ∨ 10 ^ j ≤ f.c) :
    IsPly N ((writePly N dbl t).take ((writePly N dbl t).length - 1 - j)) (t.points.map dbl) ((fs ++ [(⟨f.a, f.b, f.c / 10 ^ j⟩ : Tri Nat)]).map corners3) := by
  obtain ⟨e, he, hl⟩ := dec_digits_cut hj
  have h := C94_ply hN dbl (shortened t fs f j) (shortened_bits ht hf j)
  have hgood : ∀ x ∈ plyHdr t.points.length (fs.length + 1) ++ (t.points.map dbl).map (pointLine N) ++ (fs.map triPolygon).map polygonLine, '\n' ∉ x := by
    intro l hl
    simp only [plyHdr, List.mem_append, List.mem_cons, List.not_mem_nil, or_false, List.mem_map] at hl
    rcases hl with (((rfl | rfl | rfl | rfl | rfl | rfl | rfl | rfl) | rfl) | ⟨p, -, rfl⟩) | ⟨_, ⟨f, -, rfl⟩, rfl⟩
    · decide
    · decide
    · rw [List.mem_append, not_or]; exact ⟨by decide, no_newline (dec_tok _)⟩
    · decide
    · decide
    · decide
    · rw [List.mem_append, not_or]; exact ⟨by decide, no_newline (dec_tok _)⟩
    · decide
    · decide
    · exact (point_line hN p).1
    · exact (polygon_line f).1
  have e1 : writePly N dbl t = textOf ((plyHdr t.points.length (fs.length + 1) ++ (t.points.map dbl).map (pointLine N) ++ (fs.map triPolygon).map polygonLine) ++ [polygonLine (triPolygon ⟨f.a, f.b, f.c / 10 ^ j⟩) ++ e]) := by
    rw [← polygon_digits he, writePly_text, plyText, hf]
    simp [plyHdr]
  have e2 : writePly N dbl (shortened t fs f j) = textOf ((plyHdr t.points.length (fs.length + 1) ++ (t.points.map dbl).map (pointLine N) ++ (fs.map triPolygon).map polygonLine) ++ [polygonLine (triPolygon ⟨f.a, f.b, f.c / 10 ^ j⟩)]) := by
    rw [writePly_text, plyText]
    simp [shortened, plyHdr]
  rw [e1, take_open hl]
  rw [e2] at h
  obtain ⟨hdr, els, parts, i, k, v, g, vl, fl, h1, h2⟩ := h
  exact ⟨hdr, els, parts, i, k, v, g, vl, fl, linesOf_open hgood (polygon_line _).1 (by unfold polygonLine; simp [dec_ne]) h1, h2⟩

/-- **C96, OBJ is false.** Every mesh that consists of the first faces is what is read from a file that was cut. -/
theorem C96_obj_false {N : Doubles F} (hN : N.Lawful) (dbl : P → P3 F) (negative : Bool) (t : Soup P D) (hnv : t.points.length < 2 ^ 63) (ht : InRange t) (k : Nat) :
    ∃ n, (k < t.faces.length → n < (writeObj N dbl negative t).length) ∧ IsObj N ((writeObj N dbl negative t).take n) (t.points.map dbl) ((t.faces.take k).map corners3) := by
  have h := C94_obj hN dbl negative (⟨t.points, t.faces.take k, t.data⟩ : Soup P D) hnv fun f hf => ht f (List.mem_of_mem_take hf)
  have e : writeObj N dbl negative t = writeObj N dbl negative (⟨t.points, t.faces.take k, t.data⟩ : Soup P D) ++
      (t.faces.drop k).flatMap fun f => 'f' :: ' ' :: objIndex negative t.points.length f.a ++ ' ' :: objIndex negative t.points.length f.b ++ ' ' :: objIndex negative t.points.length f.c ++ ['\n'] := by
    unfold writeObj
    dsimp only
    rw [List.append_assoc, ← List.flatMap_append, List.take_append_drop]
  refine ⟨(writeObj N dbl negative (⟨t.points, t.faces.take k, t.data⟩ : Soup P D)).length, fun hk => ?_, ?_⟩
  rotate_left
  · rw [e, List.take_left' rfl]
    exact h
  · rw [e, List.length_append]
    obtain ⟨g, l, hg⟩ := List.exists_cons_of_ne_nil (show t.faces.drop k ≠ [] by simpa using hk)
    rw [hg]
    simp

/-- Files that have lost their end are refused, or are read as the same mesh. -/
def SafeWhenCut (write : Soup (P3 Nat) Unit → List Char) (read : IS → Soup (P3 Nat) Unit → Bool × Soup (P3 Nat) Unit × Nat) : Prop :=
  ∀ t : Soup (P3 Nat) Unit, t.points.length < 2 ^ 63 → t.faces.length < 2 ^ 63 → InRange t → t.faces ≠ [] → ∀ n target r k, read (of ((write t).take n)) target = (true, r, k) → r.points = t.points ∧ r.faces = t.faces

/-- Eleven points, and a triangle that uses the last one. -/
def elevenPoints : Soup (P3 Nat) Unit := ⟨(List.range 11).map fun i => (i, i * i, 0), [⟨0, 5, 10⟩], [()]⟩

/-- **The full claim of C96 is false** for all text formats. -/
theorem C96_full_claim_false : ¬ SafeWhenCut (writeOff natDoubles id) (readOff natDoubles ()) ∧ ¬ SafeWhenCut (writePly natDoubles id) (readPly natDoubles ()) ∧ ∀ negative, ¬ SafeWhenCut (writeObj natDoubles id negative) (readObj natDoubles ()) := by
  refine ⟨fun h => ?_, fun h => ?_, fun negative h => ?_⟩
  · have hm := C96_off_digits natDoubles_lawful id elevenPoints ⟨by decide, by decide, by decide⟩ (fs := []) (f := ⟨0, 5, 10⟩) rfl (j := 1) (.inr (by decide))
    obtain ⟨k, hk⟩ := C89_off natDoubles () hm Soup.empty
    have := (h elevenPoints (by decide) (by decide) (by unfold InRange; decide) (by decide) _ _ _ _ hk).2
    revert this
    decide
  · have hm := C96_ply_digits natDoubles_lawful id elevenPoints ⟨by decide, by decide, by decide⟩ (fs := []) (f := ⟨0, 5, 10⟩) rfl (j := 1) (.inr (by decide))
    obtain ⟨k, hk⟩ := C88_read natDoubles () hm Soup.empty
    have := (h elevenPoints (by decide) (by decide) (by unfold InRange; decide) (by decide) _ _ _ _ hk).2
    revert this
    decide
  · obtain ⟨n, -, hm⟩ := C96_obj_false natDoubles_lawful id negative Text.square (by decide) (by unfold InRange; decide) 1
    obtain ⟨k, hk⟩ := C89_obj natDoubles () hm (by decide) Soup.empty
    have := (h Text.square (by decide) (by decide) (by unfold InRange; decide) (by decide) _ _ _ _ hk).2
    revert this
    decide

/-- The file of `square` without the end of the last face is refused; without the end of the line it is read. -/
example : "OFF\n4 2 0\n0 0 0\n1 0 0\n1 1 0\n0 1 12\n3 0 1 2\n3 0 2 ".toList = (writeOff natDoubles id Text.square).take 49 := by decide +kernel
example : ∃ k, readOff natDoubles () (of ((writeOff natDoubles id Text.square).take 49)) Soup.empty = (false, Soup.empty, k) :=
  C96_off_partial natDoubles_lawful id Text.square ⟨by decide, by decide, by decide⟩ (by unfold InRange; decide) (fs := [⟨0, 1, 2⟩]) (f := ⟨0, 2, 3⟩) rfl (by decide +kernel) () Soup.empty
example : IsOff natDoubles "OFF\n4 2 0\n0 0 0\n1 0 0\n1 1 0\n0 1 12\n3 0 1 2\n3 0 2 3".toList Text.square.points [[0, 1, 2], [0, 2, 3]] :=
  C96_off_digits natDoubles_lawful id Text.square ⟨by decide, by decide, by decide⟩ (fs := [⟨0, 1, 2⟩]) (f := ⟨0, 2, 3⟩) rfl (j := 0) (.inl rfl)
example : ∃ k, readPly natDoubles () (of ((writePly natDoubles id Text.square).take 20)) Soup.empty = (false, Soup.empty, k) :=
  C96_ply_partial natDoubles_lawful id Text.square ⟨by decide, by decide, by decide⟩ (fs := [⟨0, 1, 2⟩]) (f := ⟨0, 2, 3⟩) rfl (by decide +kernel) () Soup.empty

namespace Text95
open Outcome
open Kigumi.Spec.Cli (HasFormat)
open Kigumi.Spec.Files (meshRegion StandsFor IsMesh)
open Kigumi.IO (Host Pt Byte)
open Kigumi.Cli (World main)
open Kigumi.Program

/-- **The program tells nobody.** The device has room for two of the four faces of the complement of the tetrahedron: the program ends with status 0, prints nothing to standard error, and the file that it leaves stands for an open surface. -/
theorem C96_program_false (h : Host) (w : World Byte) (hw : w.files "block.off".toList = some (bytes blockFile)) : ∃ room w', main (environment h room "rest.obj".toList) ["boolean".toList] w = (w', ok 0) ∧ w'.err = w.err ∧
    StandsFor wholeNumbers Text.natDoubles (fun n => n) w'.files "rest.obj".toList (meshRegion wholeNumbers (fun n => n) [(8, 0, 0), (0, 8, 0), (0, 0, 8), (0, 0, 0)] [[0, 2, 1], [3, 1, 2]]) := by
  have hf : HasFormat "rest.obj".toList .obj := ⟨"rest".toList, by decide⟩
  obtain ⟨n, -, hm⟩ := C96_obj_false natDoubles_lawful (fun p : Pt => (toNaturals p).getD (0, 0, 0)) false (spread Complement.inverse).boundary (by decide) (by unfold InRange; decide) 2
  obtain ⟨w', h1, h2, h3⟩ := complement h n hf (by decide) w hw
  refine ⟨n, w', h1, h2, ?_⟩
  refine .text hf h3 ?_
  have hn : Narrow ((restFile .obj).take n) := fun c hc => narrow_of (s := restFile .obj) (by decide +kernel) c (List.mem_of_mem_take hc)
  have e : (bytes (restFile .obj)).take n = bytes ((restFile .obj).take n) := List.map_take.symm
  rw [e, chars_bytes hn]
  refine ⟨?_, by decide⟩
  have e1 : ((spread Complement.inverse).boundary.points.map fun p : Pt => (toNaturals p).getD (0, 0, 0)) = [(8, 0, 0), (0, 8, 0), (0, 0, 8), (0, 0, 0)] := by decide +kernel
  have e2 : ((spread Complement.inverse).boundary.faces.take 2).map corners3 = [[0, 2, 1], [3, 1, 2]] := by decide +kernel
  rw [e1, e2] at hm
  exact hm

end Text95

end Kigumi.Props
