import Verif.Tactics
import Verif.Spec.PlyFile
import Verif.Proofs.TextPly
import Verif.Proofs.TextCounts

/-! # PLY files of any layout -/
namespace Kigumi.Text.Ply
open Kigumi Kigumi.Text IS

variable {F D : Type}

/-! ## Words -/

theorem words_space {c : Char} (hc : isSpace c = true) (r : List Char) : words (c :: r) = words r := by
  unfold words
  rw [List.splitOnP_cons_eq_if_modifyHead, if_pos hc]
  simp

theorem words_spaces {w : List Char} (hw : Spaces w) (r : List Char) : words (w ++ r) = words r := by
  induction w with
  | nil => rfl
  | cons c w ih => rw [List.cons_append, words_space (hw c (by simp)), ih fun x hx => hw x (by simp [hx])]

theorem words_tok {t r : List Char} (ht : Tok t) (hr : Stop r) : words (t ++ r) = t :: words r := by
  cases r with
  | nil =>
    rw [List.append_nil]
    unfold words
    rw [List.splitOnP_eq_singleton ht.2]
    simp [ht.1]
  | cons c r =>
    have hc := hr c r rfl
    rw [words_space hc]
    unfold words
    rw [List.splitOnP_append_cons_of_forall_mem ht.2 c hc]
    simp [ht.1]

theorem split_word (l : List Char) : Spaces l ∨ ∃ w t r, Spaces w ∧ Tok t ∧ Stop r ∧ l = w ++ (t ++ r) := by
  have h1 : l = l.takeWhile isSpace ++ l.dropWhile isSpace := (List.takeWhile_append_dropWhile).symm
  cases h : l.dropWhile isSpace with
  | nil =>
    left
    rw [h, List.append_nil] at h1
    rw [h1]
    exact takeWhile_prop isSpace l
  | cons c r =>
    right
    have hc := dropWhile_head isSpace l h
    refine ⟨_, (c :: r).takeWhile fun c => !isSpace c, (c :: r).dropWhile fun c => !isSpace c, takeWhile_prop isSpace l, ⟨?_, ?_⟩, ?_, ?_⟩
    · rw [List.takeWhile_cons, if_pos (by simp [hc])]; simp
    · intro x hx
      simpa using takeWhile_prop _ _ x hx
    · intro x r' e
      simpa using dropWhile_head _ _ e
    · rw [List.takeWhile_append_dropWhile, ← h]; exact h1

/-- A stream in a line with these words left. -/
structure At (s : IS) (ws : List (List Char)) : Prop where
  fail : s.fail = false
  words : words s.rest = ws
  eof : s.eof = true → s.rest = []

theorem at_of (l : List Char) : At (of l) (words l) := ⟨rfl, rfl, fun h => by cases h⟩

theorem at_rest {r : List Char} {ws : List (List Char)} (h : words r = ws) : At ⟨r, r.isEmpty, false⟩ ws := ⟨rfl, h, fun e => by simpa using e⟩

theorem At.nil {s : IS} (h : At s []) : Spaces s.rest := by
  rcases split_word s.rest with hs | ⟨w, t, r, hw, ht, hr, e⟩
  · exact hs
  · have := h.words
    rw [e, words_spaces hw, words_tok ht hr] at this
    cases this

theorem At.cons {s : IS} {w : List Char} {ws : List (List Char)} (h : At s (w :: ws)) : ∃ a r, s = ⟨a ++ (w ++ r), false, false⟩ ∧ Spaces a ∧ Tok w ∧ Stop r ∧ Ply.words r = ws := by
  obtain ⟨rest, eof, fail⟩ := s
  have hf := h.fail
  have hw := h.words
  have he := h.eof
  dsimp only at hf hw he
  subst hf
  rcases split_word rest with hs | ⟨a, t, r, ha, ht, hr, rfl⟩
  · have := words_spaces hs []
    rw [List.append_nil] at this
    rw [this] at hw
    cases hw
  · rw [words_spaces ha, words_tok ht hr] at hw
    injection hw with h1 h2
    subst h1
    cases eof with
    | true =>
      exact absurd (he rfl) (by simp [ht.1])
    | false => exact ⟨a, r, rfl, ha, ht, hr, h2⟩

theorem At.readStr {s : IS} {w : List Char} {ws : List (List Char)} (h : At s (w :: ws)) : ∃ s', s.readStr = (s', w) ∧ At s' ws := by
  obtain ⟨a, r, rfl, ha, hw, hr, e⟩ := h.cons
  exact ⟨_, readStr_tok ha hw hr, at_rest e⟩

theorem At.sentry_nil {s : IS} (h : At s []) : s.sentry.fail = true := by
  have hs := h.nil
  obtain ⟨rest, eof, fail⟩ := s
  have := h.fail
  dsimp only at this hs
  subst this
  cases eof with
  | true => rfl
  | false => rw [sentry_spaces hs]

theorem At.readStr_nil {s : IS} (h : At s []) : s.readStr.1.fail = true := by
  unfold IS.readStr
  dsimp only
  rw [if_pos h.sentry_nil]
  exact h.sentry_nil

theorem At.readSize_nil {s : IS} (h : At s []) (old : Nat) : (s.readSize old).1.fail = true := by
  unfold IS.readSize
  dsimp only
  rw [if_pos h.sentry_nil]
  exact h.sentry_nil

theorem expectEof_fail {s : IS} (h : s.fail = true) : s.expectEof.fail = true := by
  unfold expectEof
  split
  · exact h
  · split
    · exact h
    · rfl

theorem readStr_failed {s : IS} (h : s.fail = true) : s.readStr.1.fail = true := by
  rw [readStr_fail (by simp [good, h])]; rfl

theorem readSize_failed {s : IS} (h : s.fail = true) (old : Nat) : (s.readSize old).1.fail = true := by
  have : s.sentry = s.setFail := by unfold sentry; rw [if_pos (by simp [good, h])]
  unfold IS.readSize
  dsimp only
  rw [this, if_pos (show s.setFail.fail = true from rfl)]
  rfl

theorem expect_fail {s : IS} (h : s.fail = true) (w : List Char) : (s.expect w).fail = true := by
  unfold expect
  dsimp only
  split
  · rfl
  · exact readStr_failed h

theorem At.expectEof_iff {s : IS} {ws : List (List Char)} (h : At s ws) : s.expectEof.fail = false ↔ ws = [] := by
  cases ws with
  | nil =>
    have hs := h.nil
    have hf := h.fail
    refine ⟨fun _ => rfl, fun _ => ?_⟩
    unfold expectEof
    split
    · exact hf
    · have := dropWhile_all hs []
      rw [List.append_nil] at this
      rw [this]
      exact hf
  | cons w ws =>
    obtain ⟨a, r, rfl, ha, hw, hr, e⟩ := h.cons
    obtain ⟨hne, hw⟩ := hw
    cases w with
    | nil => exact absurd rfl hne
    | cons c w =>
      refine ⟨fun h => ?_, fun h => by cases h⟩
      rw [List.cons_append, expectEof_tok ha (hw c (by simp))] at h
      cases h

theorem At.expect {s : IS} {ws : List (List Char)} (h : At s ws) (w : List Char) : (∃ r, ws = w :: r ∧ At (s.expect w) r) ∨ ((∀ r, ws ≠ w :: r) ∧ (s.expect w).fail = true) := by
  cases ws with
  | nil =>
    refine .inr ⟨fun r e => (by cases e), ?_⟩
    unfold IS.expect
    dsimp only
    rw [if_pos (by rw [h.readStr_nil]; rfl)]
    rfl
  | cons v ws =>
    obtain ⟨s', e, hs⟩ := h.readStr
    unfold IS.expect
    rw [e]
    dsimp only
    by_cases hv : v = w
    · left
      refine ⟨ws, by rw [hv], ?_⟩
      rw [if_neg (by simp [hs.fail, hv])]
      exact hs
    · right
      refine ⟨fun r e => hv (by injection e), ?_⟩
      rw [if_pos (by simp [hv])]
      rfl

/-! ## Numbers -/

theorem digitsValue_decVal (a : Nat) (ds : List Char) : digitsValue a ds = ds.foldl (fun a c => 10 * a + (c.toNat - 48)) a := by
  induction ds generalizing a with
  | nil => rfl
  | cons c ds ih => exact ih _

theorem digitsValue_eq (ds : List Char) : digitsValue 0 ds = decVal ds := digitsValue_decVal 0 ds

theorem scanInt_plus {ds r : List Char} (hd : ∀ c ∈ ds, isDigit c = true) (hr : StopDigit r) : scanInt ('+' :: (ds ++ r)) = (false, ds, r) := by
  show (false, (ds ++ r).takeWhile isDigit, (ds ++ r).dropWhile isDigit) = _
  rw [takeWhile_all hd, takeWhile_stopDigit hr, List.append_nil, dropWhile_all hd, dropWhile_stopDigit hr]

theorem IsNat.scan {w : List Char} {n : Nat} (h : IsNat w n) : n < 2 ^ 64 ∧ ∃ ds, ds ≠ [] ∧ decVal ds = n ∧ ∀ r, Stop r → scanInt (w ++ r) = (false, ds, r) := by
  obtain ⟨hn, ds, hw, hne, hd, hv⟩ := h
  refine ⟨hn, ds, hne, by rw [← digitsValue_eq, hv], fun r hr => ?_⟩
  rcases hw with rfl | rfl
  · exact scanInt_digits hne hd hr.digit
  · exact scanInt_plus hd hr.digit

theorem At.readSize {s : IS} {w : List Char} {ws : List (List Char)} (h : At s (w :: ws)) {n : Nat} (hn : IsNat w n) (old : Nat) : ∃ s', s.readSize old = (s', n) ∧ At s' ws := by
  obtain ⟨a, r, rfl, ha, hw, hr, e⟩ := h.cons
  obtain ⟨h1, ds, h2, h3, h4⟩ := hn.scan
  refine ⟨⟨r, r.isEmpty, false⟩, ?_, at_rest e⟩
  unfold IS.readSize
  rw [sentry_of_tok ha hw.1 fun c t' e => hw.2 c (by rw [e]; simp)]
  dsimp only
  rw [if_neg (by simp), h4 r hr]
  dsimp only
  rw [if_neg h2, if_neg (by omega), if_neg (by simp), h3]

/-- The number in a word, as C++ reads it. -/
def countOf (w : List Char) : Option Nat := if ((of w).readSize 0).1.fail = true ∨ ((of w).readSize 0).1.rest ≠ [] then none else some ((of w).readSize 0).2

theorem scanInt_split (l : List Char) : ∃ sg, l = sg ++ ((scanInt l).2.1 ++ (scanInt l).2.2) ∧ (∀ c ∈ (scanInt l).2.1, isDigit c = true) ∧ StopDigit (scanInt l).2.2 ∧
    ((sg = ['-'] ∧ (scanInt l).1 = true) ∨ ((sg = ['+'] ∨ sg = []) ∧ (scanInt l).1 = false)) := by
  have stop : ∀ r : List Char, StopDigit (r.dropWhile isDigit) := fun r c r' e => dropWhile_head isDigit r e
  unfold scanInt
  split
  · next r => exact ⟨['-'], by simp [List.takeWhile_append_dropWhile], takeWhile_prop _ _, stop r, .inl ⟨rfl, rfl⟩⟩
  · next r => exact ⟨['+'], by simp [List.takeWhile_append_dropWhile], takeWhile_prop _ _, stop r, .inr ⟨.inl rfl, rfl⟩⟩
  · exact ⟨[], by simp [List.takeWhile_append_dropWhile], takeWhile_prop _ _, stop l, .inr ⟨.inr rfl, rfl⟩⟩

theorem dropWhile_append_ne {r : List Char} (hr : Stop r) (l : List Char) : (l ++ r).takeWhile isDigit = l.takeWhile isDigit ∧ (l ++ r).dropWhile isDigit = l.dropWhile isDigit ++ r := by
  induction l with
  | nil => exact ⟨takeWhile_stopDigit hr.digit, dropWhile_stopDigit hr.digit⟩
  | cons c l ih =>
    rw [List.cons_append, List.takeWhile_cons, List.takeWhile_cons, List.dropWhile_cons, List.dropWhile_cons]
    split
    · exact ⟨by rw [ih.1], ih.2⟩
    · exact ⟨rfl, rfl⟩

theorem scanInt_stop {w r : List Char} (hw : w ≠ []) (hr : Stop r) : scanInt (w ++ r) = ((scanInt w).1, (scanInt w).2.1, (scanInt w).2.2 ++ r) := by
  cases w with
  | nil => exact absurd rfl hw
  | cons c w =>
    obtain ⟨h1, h2⟩ := dropWhile_append_ne hr w
    obtain ⟨h3, h4⟩ := dropWhile_append_ne hr (c :: w)
    by_cases hm : c = '-'
    · subst hm
      show (true, (w ++ r).takeWhile isDigit, (w ++ r).dropWhile isDigit) = (true, w.takeWhile isDigit, w.dropWhile isDigit ++ r)
      rw [h1, h2]
    · by_cases hp : c = '+'
      · subst hp
        show (false, (w ++ r).takeWhile isDigit, (w ++ r).dropWhile isDigit) = (false, w.takeWhile isDigit, w.dropWhile isDigit ++ r)
        rw [h1, h2]
      · have key : ∀ l, scanInt (c :: l) = (false, (c :: l).takeWhile isDigit, (c :: l).dropWhile isDigit) := by
          intro l
          unfold scanInt
          split
          · next e => exact absurd (List.cons.inj e).1 hm
          · next e => exact absurd (List.cons.inj e).1 hp
          · rfl
        rw [List.cons_append, key, key]
        rw [List.cons_append] at h3 h4
        rw [h3, h4]

theorem readSize_scan {a w r : List Char} (ha : Spaces a) (hw : Tok w) (hr : Stop r) : (⟨a ++ (w ++ r), false, false⟩ : IS).readSize 0 =
    if (scanInt w).2.1 = [] then (⟨(scanInt w).2.2 ++ r, ((scanInt w).2.2 ++ r).isEmpty, true⟩, 0)
    else if 2 ^ 64 ≤ decVal (scanInt w).2.1 then (⟨(scanInt w).2.2 ++ r, ((scanInt w).2.2 ++ r).isEmpty, true⟩, 2 ^ 64 - 1)
    else (⟨(scanInt w).2.2 ++ r, ((scanInt w).2.2 ++ r).isEmpty, false⟩, if (scanInt w).1 then (2 ^ 64 - decVal (scanInt w).2.1) % 2 ^ 64 else decVal (scanInt w).2.1) := by
  unfold IS.readSize
  rw [sentry_of_tok ha hw.1 fun c t' e => hw.2 c (by rw [e]; simp)]
  dsimp only
  rw [if_neg (by simp), scanInt_stop hw.1 hr]

theorem readSize_of {w : List Char} (hw : Tok w) : (of w).readSize 0 =
    if (scanInt w).2.1 = [] then (⟨(scanInt w).2.2, (scanInt w).2.2.isEmpty, true⟩, 0)
    else if 2 ^ 64 ≤ decVal (scanInt w).2.1 then (⟨(scanInt w).2.2, (scanInt w).2.2.isEmpty, true⟩, 2 ^ 64 - 1)
    else (⟨(scanInt w).2.2, (scanInt w).2.2.isEmpty, false⟩, if (scanInt w).1 then (2 ^ 64 - decVal (scanInt w).2.1) % 2 ^ 64 else decVal (scanInt w).2.1) := by
  have := readSize_scan spaces_nil hw stop_nil
  rw [List.append_nil, List.append_nil] at this
  exact this

theorem readSize_word {a w r : List Char} (ha : Spaces a) (hw : Tok w) (hr : Stop r) : ((⟨a ++ (w ++ r), false, false⟩ : IS).readSize 0).2 = ((of w).readSize 0).2 ∧
    ((⟨a ++ (w ++ r), false, false⟩ : IS).readSize 0).1.fail = ((of w).readSize 0).1.fail ∧ ((⟨a ++ (w ++ r), false, false⟩ : IS).readSize 0).1.rest = ((of w).readSize 0).1.rest ++ r ∧
    ((⟨a ++ (w ++ r), false, false⟩ : IS).readSize 0).1.eof = ((⟨a ++ (w ++ r), false, false⟩ : IS).readSize 0).1.rest.isEmpty := by
  rw [readSize_scan ha hw hr, readSize_of hw]
  by_cases h1 : (scanInt w).2.1 = []
  · rw [if_pos h1, if_pos h1]
    exact ⟨rfl, rfl, rfl, rfl⟩
  · rw [if_neg h1, if_neg h1]
    by_cases h2 : 2 ^ 64 ≤ decVal (scanInt w).2.1
    · rw [if_pos h2, if_pos h2]
      exact ⟨rfl, rfl, rfl, rfl⟩
    · rw [if_neg h2, if_neg h2]
      exact ⟨rfl, rfl, rfl, rfl⟩

/-- A number at the end of a line of the header. -/
theorem At.readSize_end {s : IS} {ws : List (List Char)} (h : At s ws) : (∃ c n, ws = [c] ∧ countOf c = some n ∧ (s.readSize 0).2 = n ∧ (s.readSize 0).1.expectEof.fail = false) ∨
    ((∀ c n, ws = [c] → countOf c ≠ some n) ∧ (s.readSize 0).1.expectEof.fail = true) := by
  cases ws with
  | nil => exact .inr ⟨fun c n e => (by cases e), expectEof_fail (h.readSize_nil 0)⟩
  | cons c ws =>
    obtain ⟨a, r, rfl, ha, hw, hr, e⟩ := h.cons
    obtain ⟨h1, h2, h3, h4⟩ := readSize_word ha hw hr
    by_cases hf : ((of c).readSize 0).1.fail = true
    · exact .inr ⟨fun c' n e => (by cases e; unfold countOf; rw [if_pos (.inl hf)]; simp), expectEof_fail (by rw [h2, hf])⟩
    · have hf' : ((of c).readSize 0).1.fail = false := by simpa using hf
      cases ht : ((of c).readSize 0).1.rest with
      | cons x t =>
        refine .inr ⟨fun c' n e => (by cases e; unfold countOf; rw [if_pos (.inr (by rw [ht]; simp))]; simp), ?_⟩
        have hx : isSpace x = false := by
          refine hw.2 x ?_
          rw [readSize_of hw] at ht
          obtain ⟨sg, hs, -⟩ := scanInt_split c
          have hr' : (scanInt c).2.2 = x :: t := by
            split at ht
            · exact ht
            · split at ht
              · exact ht
              · exact ht
          rw [hs, hr']
          simp
        generalize (IS.readSize ⟨a ++ (c ++ r), false, false⟩ 0).1 = s' at *
        obtain ⟨rest, eof, fail⟩ := s'
        dsimp only at h2 h3 h4
        rw [ht] at h3
        subst h3
        rw [h4]
        unfold expectEof
        rw [if_neg (by simp), List.cons_append, List.dropWhile_cons, if_neg (by simp [hx])]
      | nil =>
        have hc : countOf c = some ((of c).readSize 0).2 := by unfold countOf; rw [if_neg]; rintro (h | h); exact hf h; exact h ht
        have hat : At (IS.readSize ⟨a ++ (c ++ r), false, false⟩ 0).1 ws := by
          refine ⟨by rw [h2, hf'], by rw [h3, ht]; exact e, fun he => ?_⟩
          rw [h4] at he
          simpa using he
        by_cases hws : ws = []
        · subst hws
          exact .inl ⟨c, _, rfl, hc, h1, hat.expectEof_iff.2 rfl⟩
        · refine .inr ⟨fun c' n e => (by injection e with _ e; exact absurd e hws), ?_⟩
          have := mt hat.expectEof_iff.1 hws
          simpa using this

theorem countOf_iff {w : List Char} (hw : Tok w) (n : Nat) : countOf w = some n ↔ IsNatOrWrapped w n := by
  have e2 := readSize_of hw
  constructor
  · intro h
    unfold countOf at h
    split at h
    · cases h
    · next hn =>
      have hn1 : ((of w).readSize 0).1.fail = false := by
        rcases hb : ((of w).readSize 0).1.fail with _ | _
        · rfl
        · exact absurd (.inl hb) hn
      have hn2 : ((of w).readSize 0).1.rest = [] := by
        by_contra hb
        exact hn (.inr hb)
      injection h with h
      rw [e2] at h hn1 hn2
      split at h
      · next h1 => rw [if_pos h1] at hn1; cases hn1
      · next h1 =>
        rw [if_neg h1] at hn1 hn2
        split at h
        · next h2 => rw [if_pos h2] at hn1; cases hn1
        · next h2 =>
          rw [if_neg h2] at hn2
          dsimp only at h hn2
          obtain ⟨sg, hs, hd, -, hsg⟩ := scanInt_split w
          rw [hn2, List.append_nil] at hs
          rcases hsg with ⟨rfl, hb⟩ | ⟨hsg, hb⟩
          · rw [hb, if_pos rfl] at h
            refine .inr ⟨_, decVal (scanInt w).2.1, hs, ⟨by omega, _, .inl rfl, h1, hd, digitsValue_eq _⟩, fun r e => ?_, h.symm⟩
            have e : (scanInt w).2.1 = '+' :: r := e
            have := hd '+' (by rw [e]; simp)
            revert this; decide
          · rw [hb, if_neg (by simp)] at h
            refine .inl ⟨by omega, _, ?_, h1, hd, by rw [digitsValue_eq, h]⟩
            rcases hsg with rfl | rfl
            · exact .inr hs
            · exact .inl hs
  · rintro (h | ⟨ds, m, rfl, h, hp, rfl⟩)
    · obtain ⟨h1, ds, h2, h3, h4⟩ := h.scan
      have := h4 [] stop_nil
      rw [List.append_nil] at this
      rw [this] at e2
      dsimp only at e2
      rw [if_neg h2, if_neg (by omega), if_neg (by simp)] at e2
      unfold countOf
      rw [e2]
      simp [h3]
    · obtain ⟨h1, ds', hds, h2, h3, h4⟩ := h
      rcases hds with rfl | rfl
      · have hs := scanInt_neg (r := []) h3 stop_nil.digit
        rw [List.append_nil] at hs
        rw [hs] at e2
        dsimp only at e2
        rw [digitsValue_eq] at h4
        rw [if_neg h2, if_neg (by omega), if_pos rfl, h4] at e2
        unfold countOf
        rw [e2]
        simp
      · exact absurd rfl (hp _)

theorem at_tok {s : IS} {w : List Char} {ws : List (List Char)} (h : At s (w :: ws)) : Tok w := by
  obtain ⟨_, _, _, _, hw, _⟩ := h.cons
  exact hw

theorem words_toks (l : List Char) : ∀ w ∈ words l, Tok w := by
  have key : ∀ (ws : List (List Char)) (l : List Char), words l = ws → ∀ w ∈ ws, Tok w := by
    intro ws
    induction ws with
    | nil => intro l _ w hw; cases hw
    | cons v ws ih =>
      intro l e w hw
      have h : At (of l) (v :: ws) := e ▸ at_of l
      obtain ⟨a, r, -, -, hv, -, e'⟩ := h.cons
      rcases List.mem_cons.1 hw with rfl | hw
      · exact hv
      · exact ih r e' w hw
  exact key _ l rfl

/-! ## The header -/

/-- One line of the header, given by its words. -/
def headerWords (st : PlyState) (els : List Elem) : List (List Char) → Option (PlyState × List Elem)
  | [] => some (st, els)
  | w :: ws =>
    if w = "comment".toList then some (st, els)
    else match st with
      | .signature => if w = "ply".toList ∧ ws = [] then some (.version, els) else none
      | .version => if w = "format".toList ∧ ws = ["ascii".toList, "1.0".toList] then some (.elements, els) else none
      | .elements =>
        if w = "element".toList then
          match ws with
          | [name, c] => (countOf c).map fun n => (.elements, els ++ [⟨name, n, []⟩])
          | _ => none
        else if w = "property".toList then
          if els = [] then none
          else match ws with
            | [t, n] => if t = "list".toList then none else some (.elements, addProp els ⟨t, n⟩)
            | [t, _, _, n] => if t = "list".toList then some (.elements, addProp els ⟨t, n⟩) else none
            | _ => none
        else if w = "end_header".toList then some (.body, els)
        else none
      | .body => some (.body, els)

theorem At.readStr' {s : IS} {ws : List (List Char)} (h : At s ws) : (ws = [] ∧ s.readStr.1.fail = true) ∨ ∃ w r, ws = w :: r ∧ s.readStr.2 = w ∧ At s.readStr.1 r := by
  cases ws with
  | nil => exact .inl ⟨rfl, h.readStr_nil⟩
  | cons w r =>
    obtain ⟨s', e, h'⟩ := h.readStr
    exact .inr ⟨w, r, rfl, by rw [e], by rw [e]; exact h'⟩

theorem plyHeaderLine_words (l : List Char) (st : PlyState) (els : List Elem) : plyHeaderLine l st els = headerWords st els (words l) := by
  have h0 := at_of l
  unfold plyHeaderLine
  dsimp only
  cases hw : words l with
  | nil =>
    rw [hw] at h0
    rw [if_pos (by rw [h0.expectEof_iff.2 rfl]; rfl)]
    rfl
  | cons w ws =>
    rw [hw] at h0
    have hf : (of l).expectEof.fail = true := by
      have := mt h0.expectEof_iff.1 (by simp)
      simpa using this
    rw [if_neg (by simp [hf])]
    have h1 : At (of l).expectEof.clear (w :: ws) := by
      obtain ⟨a, r, e, ha, hw', hr, e'⟩ := h0.cons
      rw [e]
      obtain ⟨hne, hs⟩ := hw'
      cases w with
      | nil => exact absurd rfl hne
      | cons c w =>
        rw [List.cons_append, expectEof_tok ha (hs c (by simp))]
        refine ⟨rfl, ?_, fun h => by cases h⟩
        show words (c :: (w ++ r)) = _
        rw [← List.cons_append, words_tok ⟨hne, hs⟩ hr, e']
    obtain ⟨s, e, h2⟩ := h1.readStr
    rw [e]
    unfold headerWords
    dsimp only
    by_cases hc : w = "comment".toList
    · rw [if_pos hc, if_pos hc]
    rw [if_neg hc, if_neg hc]
    cases st with
    | signature =>
      dsimp only
      by_cases h3 : w = "ply".toList
      · rw [if_neg (not_not.2 h3)]
        by_cases h4 : ws = []
        · rw [if_neg (by rw [h2.expectEof_iff.2 h4]; simp), if_pos ⟨h3, h4⟩]
        · rw [if_pos (by simpa using mt h2.expectEof_iff.1 h4), if_neg (fun h => h4 h.2)]
      · rw [if_pos h3, if_neg fun h => h3 h.1]
    | version =>
      dsimp only
      by_cases h3 : w = "format".toList
      · rw [if_neg (not_not.2 h3)]
        rcases h2.expect "ascii".toList with ⟨r, rfl, h4⟩ | ⟨h4, h5⟩
        · rcases h4.expect "1.0".toList with ⟨r', rfl, h5⟩ | ⟨h5, h6⟩
          · by_cases h6 : r' = []
            · rw [if_neg (by rw [h5.expectEof_iff.2 h6]; simp), if_pos ⟨h3, by rw [h6]⟩]
            · rw [if_pos (by simpa using mt h5.expectEof_iff.1 h6), if_neg (fun h => h6 (by simpa using h.2))]
          · rw [if_pos (expectEof_fail h6), if_neg (fun h => h5 [] (by simpa using h.2))]
        · rw [if_pos (expectEof_fail (expect_fail h5 _)), if_neg (fun h => h4 _ h.2)]
      · rw [if_pos h3, if_neg fun h => h3 h.1]
    | elements =>
      dsimp only
      by_cases h3 : w = "element".toList
      · rw [if_pos h3, if_pos h3]
        rcases h2.readStr' with ⟨rfl, h4⟩ | ⟨name, r, rfl, h4, h5⟩
        · rw [if_pos (expectEof_fail (readSize_failed h4 0))]
        · rcases h5.readSize_end with ⟨c, n, rfl, h6, h7, h8⟩ | ⟨h6, h7⟩
          · rw [if_neg (by rw [h8]; simp), h4, h7]
            dsimp only
            rw [h6]
            rfl
          · rw [if_pos h7]
            split
            · next e =>
              injection e with _ e
              cases hco : countOf _ with
              | none => rfl
              | some n => exact absurd hco (h6 _ n e)
            · rfl
      · rw [if_neg h3, if_neg h3]
        by_cases h4 : w = "property".toList
        · rw [if_pos h4, if_pos h4]
          by_cases h5 : els = []
          · rw [if_pos h5, if_pos h5]
          · rw [if_neg h5, if_neg h5]
            rcases h2.readStr' with ⟨rfl, h6⟩ | ⟨t, r, rfl, h6, h7⟩
            · rw [if_pos h6]
            · rw [if_neg (by rw [h7.fail]; simp), h6]
              by_cases h8 : t = "list".toList
              · rw [if_pos h8]
                rcases h7.readStr' with ⟨rfl, g1⟩ | ⟨w1, r, rfl, -, g1⟩
                · rw [if_pos (expectEof_fail (readStr_failed (readStr_failed g1)))]
                · rcases g1.readStr' with ⟨rfl, g2⟩ | ⟨w2, r, rfl, -, g2⟩
                  · rw [if_pos (expectEof_fail (readStr_failed g2))]
                    dsimp only
                    rw [if_pos h8]
                  · rcases g2.readStr' with ⟨rfl, g3⟩ | ⟨w3, r, rfl, g4, g3⟩
                    · rw [if_pos (expectEof_fail g3)]
                    · by_cases hr : r = []
                      · subst hr
                        rw [if_neg (by rw [g3.expectEof_iff.2 rfl]; simp), g4]
                        dsimp only
                        rw [if_pos h8]
                      · rw [if_pos (by simpa using mt g3.expectEof_iff.1 hr)]
                        cases r with
                        | nil => exact absurd rfl hr
                        | cons _ _ => rfl
              · rw [if_neg h8]
                rcases h7.readStr' with ⟨rfl, g1⟩ | ⟨w1, r, rfl, g2, g1⟩
                · rw [if_pos (expectEof_fail g1)]
                · by_cases hr : r = []
                  · subst hr
                    rw [if_neg (by rw [g1.expectEof_iff.2 rfl]; simp), g2]
                    dsimp only
                    rw [if_neg h8]
                  · rw [if_pos (by simpa using mt g1.expectEof_iff.1 hr)]
                    split
                    · next e => injection e with _ e; injection e with _ e; exact absurd e hr
                    · next e => injection e with e; rw [if_neg (e ▸ h8)]
                    · rfl
        · rw [if_neg h4, if_neg h4]
    | body => rfl

end Kigumi.Text.Ply
