import Verif.Tactics
import Verif.Model.TextIO

/-!
# Lines, tokens and numbers in text streams
-/
namespace Kigumi.Text
open Kigumi IS

/-! ## Lists -/

theorem dropWhile_all {α : Type} {p : α → Bool} {l : List α} (h : ∀ x ∈ l, p x = true) (r : List α) : (l ++ r).dropWhile p = r.dropWhile p := by
  induction l with
  | nil => rfl
  | cons a l ih => rw [List.cons_append, List.dropWhile_cons, if_pos (h a (by simp))]; exact ih fun x hx => h x (by simp [hx])

theorem takeWhile_all {α : Type} {p : α → Bool} {l : List α} (h : ∀ x ∈ l, p x = true) (r : List α) : (l ++ r).takeWhile p = l ++ r.takeWhile p := by
  induction l with
  | nil => rfl
  | cons a l ih => rw [List.cons_append, List.takeWhile_cons, if_pos (h a (by simp)), ih fun x hx => h x (by simp [hx])]; rfl

theorem takeWhile_prop {α : Type} (p : α → Bool) (l : List α) : ∀ x ∈ l.takeWhile p, p x = true := by
  induction l with
  | nil => intro x hx; cases hx
  | cons a l ih =>
    intro x hx
    rw [List.takeWhile_cons] at hx
    split at hx
    · rcases List.mem_cons.1 hx with rfl | hx
      · assumption
      · exact ih x hx
    · cases hx

theorem dropWhile_head {α : Type} (p : α → Bool) (l : List α) {a : α} {r : List α} (h : l.dropWhile p = a :: r) : p a = false := by
  induction l with
  | nil => cases h
  | cons b l ih =>
    rw [List.dropWhile_cons] at h
    split at h
    · exact ih h
    · next hb => cases h; simpa using hb

theorem dropWhile_length {α : Type} (p : α → Bool) (l : List α) : (l.dropWhile p).length ≤ l.length := by
  have := congrArg List.length (List.takeWhile_append_dropWhile (p := p) (l := l))
  rw [List.length_append] at this
  omega

/-! ## Lines -/

theorem getline_nl {l r : List Char} (hl : '\n' ∉ l) : getline (of (l ++ '\n' :: r)) = (of r, some l) := by
  have hp : ∀ c ∈ l, (c != '\n') = true := by intro c hc; simp only [bne_iff_ne]; rintro rfl; exact hl hc
  unfold getline
  rw [if_neg (by simp [good, of])]
  dsimp only [of]
  rw [takeWhile_all hp, dropWhile_all hp]
  simp

theorem getline_last {l : List Char} (hl : '\n' ∉ l) (hne : l ≠ []) : getline (of l) = (⟨[], true, false⟩, some l) := by
  have hp : ∀ c ∈ l, (c != '\n') = true := by intro c hc; simp only [bne_iff_ne]; rintro rfl; exact hl hc
  unfold getline
  rw [if_neg (by simp [good, of])]
  dsimp only [of]
  have h1 := takeWhile_all hp []
  have h2 := dropWhile_all hp []
  rw [List.append_nil] at h1 h2
  rw [h1, h2]
  simp [hne]

theorem getline_nil : getline (of []) = (⟨[], true, true⟩, none) := rfl

theorem getline_end (b : Bool) : getline ⟨[], true, b⟩ = (⟨[], true, true⟩, none) := by cases b <;> rfl

theorem linesLoop_end (n : Nat) (b : Bool) : linesLoop n ⟨[], true, b⟩ = [] := by
  cases n with
  | zero => rfl
  | succ n => unfold linesLoop; rw [getline_end]

/-- A text has a first line, or is empty. -/
theorem first_line (t : List Char) : t = [] ∨ (t ≠ [] ∧ '\n' ∉ t) ∨ ∃ l r, '\n' ∉ l ∧ t = l ++ '\n' :: r := by
  by_cases h : '\n' ∈ t
  · right; right
    obtain ⟨l, r, rfl, hl⟩ := List.append_of_mem' h
    exact ⟨l, r, hl, rfl⟩
  · by_cases h0 : t = []
    · exact Or.inl h0
    · exact Or.inr (Or.inl ⟨h0, h⟩)
where
  List.append_of_mem' {t : List Char} (h : '\n' ∈ t) : ∃ l r, t = l ++ '\n' :: r ∧ '\n' ∉ l := by
    induction t with
    | nil => cases h
    | cons a t ih =>
      by_cases ha : a = '\n'
      · subst ha; exact ⟨[], t, rfl, by simp⟩
      · rcases List.mem_cons.1 h with h | h
        · exact absurd h.symm ha
        · obtain ⟨l, r, rfl, hl⟩ := ih h
          exact ⟨a :: l, r, rfl, by simp only [List.mem_cons, not_or]; exact ⟨fun e => ha e.symm, hl⟩⟩

theorem linesLoop_fuel (k : Nat) : ∀ (t : List Char), t.length ≤ k → ∀ n m, t.length < n → t.length < m → linesLoop n (of t) = linesLoop m (of t) := by
  induction k with
  | zero =>
    intro t ht n m hn hm
    have : t = [] := List.length_eq_zero_iff.1 (by omega)
    subst this
    cases n with
    | zero => omega
    | succ n => cases m with
      | zero => omega
      | succ m => unfold linesLoop; rw [getline_nil]
  | succ k ih =>
    intro t ht n m hn hm
    cases n with
    | zero => omega
    | succ n => cases m with
      | zero => omega
      | succ m =>
        unfold linesLoop
        rcases first_line t with rfl | ⟨h0, hl⟩ | ⟨l, r, hl, rfl⟩
        · rw [getline_nil]
        · rw [getline_last hl h0]; simp only [linesLoop_end]
        · rw [getline_nl hl]
          simp only [List.length_append, List.length_cons] at ht hn hm
          dsimp only
          rw [ih r (by omega) n m (by omega) (by omega)]

theorem lines_nil : lines (of []) = [] := rfl

theorem lines_last {l : List Char} (hl : '\n' ∉ l) (hne : l ≠ []) : lines (of l) = [l] := by
  unfold lines linesLoop
  rw [getline_last hl hne]
  dsimp only
  rw [linesLoop_end]

theorem lines_cons {l r : List Char} (hl : '\n' ∉ l) : lines (of (l ++ '\n' :: r)) = l :: lines (of r) := by
  unfold lines
  rw [show linesLoop ((of (l ++ '\n' :: r)).rest.length + 1) (of (l ++ '\n' :: r)) = l :: linesLoop (l ++ '\n' :: r).length (of r) by
    show (match getline (of (l ++ '\n' :: r)) with
      | (_, none) => []
      | (s, some l) => l :: linesLoop _ s) = _
    rw [getline_nl hl]; rfl]
  rw [linesLoop_fuel r.length r (Nat.le_refl _) _ (r.length + 1) (by simp; omega) (by omega)]
  rfl

/-- A text that is empty or ends with a line end. -/
def Whole (t : List Char) : Prop := t = [] ∨ ∃ a, t = a ++ ['\n']

theorem whole_tail {l r : List Char} (h : Whole (l ++ '\n' :: r)) : Whole r := by
  rcases h with h | ⟨a, h⟩
  · simp at h
  · by_cases h0 : r = []
    · exact Or.inl h0
    · right
      refine ⟨r.dropLast, ?_⟩
      have h1 := congrArg List.getLast? h
      rw [List.getLast?_append, List.getLast?_append] at h1
      have h2 : r.getLast? = some (r.getLast h0) := List.getLast?_eq_some_getLast h0
      rw [List.getLast?_cons, h2] at h1
      simp only [Option.getD_some, Option.some_or, List.getLast?_singleton, Option.some.injEq] at h1
      rw [← h1]
      exact (List.dropLast_append_getLast h0).symm

theorem lines_append (k : Nat) : ∀ (a b : List Char), a.length ≤ k → Whole a → lines (of (a ++ b)) = lines (of a) ++ lines (of b) := by
  induction k with
  | zero =>
    intro a b ha _
    have : a = [] := List.length_eq_zero_iff.1 (by omega)
    subst this; rfl
  | succ k ih =>
    intro a b ha hw
    rcases first_line a with rfl | ⟨h0, hl⟩ | ⟨l, r, hl, rfl⟩
    · rfl
    · rcases hw with hw | ⟨c, rfl⟩
      · exact absurd hw h0
      · exact absurd (by simp) hl
    · rw [List.append_assoc, List.cons_append, lines_cons hl, lines_cons hl, List.cons_append, ih r b (by simp at ha; omega) (whole_tail hw)]

theorem lines_whole {a : List Char} (hw : Whole a) (b : List Char) : lines (of (a ++ b)) = lines (of a) ++ lines (of b) := lines_append _ a b (Nat.le_refl _) hw

theorem lines_flatMap {α : Type} (g l : α → List Char) (hg : ∀ x, g x = l x ++ ['\n']) (hl : ∀ x, '\n' ∉ l x) (xs : List α) (t : List Char) :
    lines (of (xs.flatMap g ++ t)) = xs.map l ++ lines (of t) := by
  induction xs with
  | nil => rfl
  | cons x xs ih =>
    rw [List.flatMap_cons, hg, List.append_assoc, List.append_assoc, List.singleton_append, lines_cons (hl x), ih]
    rfl

theorem lines_length (k : Nat) : ∀ t : List Char, t.length ≤ k → ((lines (of t)).map List.length).sum ≤ t.length := by
  induction k with
  | zero =>
    intro t ht
    have : t = [] := List.length_eq_zero_iff.1 (by omega)
    subst this; simp [lines_nil]
  | succ k ih =>
    intro t ht
    rcases first_line t with rfl | ⟨h0, hl⟩ | ⟨l, r, hl, rfl⟩
    · simp [lines_nil]
    · rw [lines_last hl h0]; simp
    · rw [lines_cons hl]
      simp only [List.length_append, List.length_cons] at ht
      have := ih r (by omega)
      simp only [List.map_cons, List.sum_cons, List.length_append, List.length_cons]; omega

theorem lines_no_nl (k : Nat) : ∀ t : List Char, t.length ≤ k → ∀ l ∈ lines (of t), '\n' ∉ l := by
  induction k with
  | zero =>
    intro t ht
    have : t = [] := List.length_eq_zero_iff.1 (by omega)
    subst this; intro l hl; simp [lines_nil] at hl
  | succ k ih =>
    intro t ht l hm
    rcases first_line t with rfl | ⟨h0, hl⟩ | ⟨l', r, hl, rfl⟩
    · simp [lines_nil] at hm
    · rw [lines_last hl h0] at hm; rw [List.mem_singleton.1 hm]; exact hl
    · rw [lines_cons hl] at hm
      rcases List.mem_cons.1 hm with rfl | hm
      · exact hl
      · exact ih r (by simp only [List.length_append, List.length_cons] at ht; omega) l hm

/-! ## Tokens -/

/-- White space. -/
def Spaces (w : List Char) : Prop := ∀ c ∈ w, isSpace c = true

/-- A token. -/
def Tok (t : List Char) : Prop := t ≠ [] ∧ ∀ c ∈ t, isSpace c = false

/-- A token ends here. -/
def Stop (r : List Char) : Prop := ∀ c r', r = c :: r' → isSpace c = true

theorem spaces_nil : Spaces [] := fun c hc => by cases hc
theorem spaces_one : Spaces [' '] := fun c hc => by rw [List.mem_singleton.1 hc]; rfl
theorem stop_nil : Stop [] := fun c r h => by cases h
theorem stop_space (r : List Char) : Stop (' ' :: r) := fun c r' h => by cases h; rfl

theorem sentry_tok {w : List Char} (hw : Spaces w) {c : Char} (hc : isSpace c = false) (r : List Char) : sentry ⟨w ++ c :: r, false, false⟩ = ⟨c :: r, false, false⟩ := by
  unfold sentry
  rw [if_neg (by simp [good])]
  dsimp only
  rw [dropWhile_all hw, List.dropWhile_cons, if_neg (by simp [hc])]

theorem sentry_spaces {w : List Char} (hw : Spaces w) : sentry ⟨w, false, false⟩ = ⟨[], true, true⟩ := by
  unfold sentry
  rw [if_neg (by simp [good])]
  dsimp only
  have := dropWhile_all hw []
  rw [List.append_nil] at this
  rw [this]; rfl

theorem takeWhile_stop {r : List Char} (h : Stop r) : (r.takeWhile fun c => !isSpace c) = [] := by
  cases r with
  | nil => rfl
  | cons c r => rw [List.takeWhile_cons, if_neg (by simp [h c r rfl])]

theorem dropWhile_stop {r : List Char} (h : Stop r) : (r.dropWhile fun c => !isSpace c) = r := by
  cases r with
  | nil => rfl
  | cons c r => rw [List.dropWhile_cons, if_neg (by simp [h c r rfl])]

theorem readStr_tok {w t r : List Char} (hw : Spaces w) (ht : Tok t) (hr : Stop r) : readStr ⟨w ++ (t ++ r), false, false⟩ = (⟨r, r.isEmpty, false⟩, t) := by
  obtain ⟨hne, hs⟩ := ht
  cases t with
  | nil => exact absurd rfl hne
  | cons c t =>
    unfold readStr
    rw [List.cons_append, sentry_tok hw (hs c (by simp))]
    dsimp only
    rw [if_neg (by simp)]
    have hp : ∀ x ∈ c :: t, (!isSpace x) = true := by intro x hx; simp [hs x hx]
    rw [← List.cons_append, dropWhile_all hp, takeWhile_all hp, dropWhile_stop hr, takeWhile_stop hr, List.append_nil]

theorem readStr_fail {s : IS} (h : s.good = false) : readStr s = (s.setFail, []) := by
  unfold readStr sentry; simp [h, setFail]

/-! ## Numbers -/

theorem isDigit_not_space {c : Char} (h : isDigit c = true) : isSpace c = false := by
  unfold isDigit at h
  simp only [Bool.and_eq_true, decide_eq_true_eq] at h
  unfold isSpace
  have h1 := h.1
  simp only [Bool.or_eq_false_iff, beq_eq_false_iff_ne]
  refine ⟨⟨⟨⟨⟨?_, ?_⟩, ?_⟩, ?_⟩, ?_⟩, ?_⟩ <;> rintro rfl <;> revert h1 <;> decide

theorem digit_char {d : Nat} (h : d < 10) : isDigit (Char.ofNat (48 + d)) = true ∧ (Char.ofNat (48 + d)).toNat = 48 + d := by
  have : ∀ d < 10, isDigit (Char.ofNat (48 + d)) = true ∧ (Char.ofNat (48 + d)).toNat = 48 + d := by decide
  exact this d h

theorem decLoop_digits (n v : Nat) : ∀ c ∈ decLoop n v, isDigit c = true := by
  induction n generalizing v with
  | zero => intro c hc; cases hc
  | succ n ih =>
    intro c hc
    unfold decLoop at hc
    rcases List.mem_append.1 hc with hc | hc
    · split at hc
      · cases hc
      · exact ih _ c hc
    · rw [List.mem_singleton.1 hc]; exact (digit_char (Nat.mod_lt _ (by decide))).1

theorem decVal_append (l : List Char) (c : Char) : decVal (l ++ [c]) = 10 * decVal l + (c.toNat - 48) := by
  unfold decVal; rw [List.foldl_append]; rfl

theorem decVal_decLoop (n v : Nat) (h : v < n) : decVal (decLoop n v) = v := by
  induction n generalizing v with
  | zero => omega
  | succ n ih =>
    unfold decLoop
    rw [decVal_append, (digit_char (Nat.mod_lt _ (by decide))).2]
    split
    · next h10 => simp only [decVal, List.foldl_nil]; omega
    · next h10 => rw [ih (v / 10) (by omega)]; omega

theorem dec_digits (v : Nat) : ∀ c ∈ dec v, isDigit c = true := decLoop_digits _ _
theorem decVal_dec (v : Nat) : decVal (dec v) = v := decVal_decLoop _ _ (by omega)
theorem dec_ne (v : Nat) : dec v ≠ [] := by unfold dec decLoop; simp
theorem dec_tok (v : Nat) : Tok (dec v) := ⟨dec_ne v, fun c hc => isDigit_not_space (dec_digits v c hc)⟩

/-- Digits end here. -/
def StopDigit (r : List Char) : Prop := ∀ c r', r = c :: r' → isDigit c = false

theorem Stop.digit {r : List Char} (h : Stop r) : StopDigit r := by
  intro c r' e
  have := h c r' e
  by_contra hc
  rw [isDigit_not_space (by simpa using hc)] at this; cases this

theorem takeWhile_stopDigit {r : List Char} (h : StopDigit r) : r.takeWhile isDigit = [] := by
  cases r with
  | nil => rfl
  | cons c r => rw [List.takeWhile_cons, if_neg (by simp [h c r rfl])]

theorem dropWhile_stopDigit {r : List Char} (h : StopDigit r) : r.dropWhile isDigit = r := by
  cases r with
  | nil => rfl
  | cons c r => rw [List.dropWhile_cons, if_neg (by simp [h c r rfl])]

theorem scanInt_digits {ds r : List Char} (hne : ds ≠ []) (hd : ∀ c ∈ ds, isDigit c = true) (hr : StopDigit r) : scanInt (ds ++ r) = (false, ds, r) := by
  have h1 : (ds ++ r).takeWhile isDigit = ds := by rw [takeWhile_all hd, takeWhile_stopDigit hr, List.append_nil]
  have h2 : (ds ++ r).dropWhile isDigit = r := by rw [dropWhile_all hd, dropWhile_stopDigit hr]
  cases ds with
  | nil => exact absurd rfl hne
  | cons c ds =>
    have hc := hd c (by simp)
    unfold scanInt
    split
    · next e => cases e; exact absurd hc (by decide)
    · next e => cases e; exact absurd hc (by decide)
    · rw [h1, h2]

theorem scanInt_neg {ds r : List Char} (hd : ∀ c ∈ ds, isDigit c = true) (hr : StopDigit r) : scanInt ('-' :: (ds ++ r)) = (true, ds, r) := by
  show (true, (ds ++ r).takeWhile isDigit, (ds ++ r).dropWhile isDigit) = _
  rw [takeWhile_all hd, takeWhile_stopDigit hr, List.append_nil, dropWhile_all hd, dropWhile_stopDigit hr]

theorem sentry_of_tok {w t r : List Char} (hw : Spaces w) (hne : t ≠ []) (ht : ∀ c t', t = c :: t' → isSpace c = false) : sentry ⟨w ++ (t ++ r), false, false⟩ = ⟨t ++ r, false, false⟩ := by
  cases t with
  | nil => exact absurd rfl hne
  | cons c t => rw [List.cons_append, sentry_tok hw (ht c t rfl)]

theorem readSize_dec {w r : List Char} (hw : Spaces w) {v : Nat} (hv : v < 2 ^ 64) (hr : StopDigit r) (old : Nat) : readSize ⟨w ++ (dec v ++ r), false, false⟩ old = (⟨r, r.isEmpty, false⟩, v) := by
  unfold readSize
  rw [sentry_of_tok hw (dec_ne v) fun c t' e => isDigit_not_space (dec_digits v c (by rw [e]; simp))]
  dsimp only
  rw [if_neg (by simp), scanInt_digits (dec_ne v) (dec_digits v) hr]
  dsimp only
  rw [if_neg (dec_ne v), decVal_dec, if_neg (by omega)]
  rfl

theorem decInt_head (v : Int) : ∀ c t', decInt v = c :: t' → isSpace c = false := by
  intro c t' e
  unfold decInt at e
  split at e
  · cases e; rfl
  · exact isDigit_not_space (dec_digits _ c (by rw [e]; simp))

theorem decInt_ne (v : Int) : decInt v ≠ [] := by
  unfold decInt; split
  · simp
  · exact dec_ne _

theorem decInt_tok (v : Int) : Tok (decInt v) := by
  refine ⟨decInt_ne v, ?_⟩
  intro c hc
  unfold decInt at hc
  split at hc
  · rcases List.mem_cons.1 hc with rfl | hc
    · rfl
    · exact isDigit_not_space (dec_digits _ c hc)
  · exact isDigit_not_space (dec_digits _ c hc)

theorem readSigned_dec {w r : List Char} (hw : Spaces w) {v : Int} (h1 : -2 ^ 63 ≤ v) (h2 : v < 2 ^ 63) (hr : StopDigit r) (old : Int) :
    readSigned ⟨w ++ (decInt v ++ r), false, false⟩ old = (⟨r, r.isEmpty, false⟩, v) := by
  unfold readSigned
  rw [sentry_of_tok hw (decInt_ne v) (decInt_head v)]
  dsimp only
  rw [if_neg (by simp)]
  by_cases hn : v < 0
  · have e : decInt v ++ r = '-' :: (dec v.natAbs ++ r) := by unfold decInt; rw [if_pos hn]; rfl
    rw [e, scanInt_neg (dec_digits _) hr]
    dsimp only
    rw [if_neg (dec_ne _), if_pos rfl, decVal_dec, if_neg (by omega)]
    congr 1; omega
  · have e : decInt v ++ r = dec v.natAbs ++ r := by unfold decInt; rw [if_neg hn]
    rw [e, scanInt_digits (dec_ne _) (dec_digits _) hr]
    dsimp only
    rw [if_neg (dec_ne _), if_neg (by simp), decVal_dec, if_neg (by omega)]
    congr 1; omega

/-! ## Doubles -/

/-- Doubles are formatted as tokens that start neither with a plus sign nor with a hash, and parsed back. -/
structure Doubles.Lawful {F : Type} (N : Doubles F) : Prop where
  parse_fmt : ∀ x, N.parse (N.fmt x) = some x
  tok : ∀ x, Tok (N.fmt x)
  head : ∀ x c r, N.fmt x = c :: r → c ≠ '+' ∧ c ≠ '#'

variable {F D : Type}

theorem readDouble_fmt {N : Doubles F} (hN : N.Lawful) {w r : List Char} (hw : Spaces w) (x : F) (hr : Stop r) (old : F) : readDouble N ⟨w ++ (N.fmt x ++ r), false, false⟩ old = (⟨r, r.isEmpty, false⟩, x) := by
  unfold readDouble
  rw [readStr_tok hw (hN.tok x) hr]
  dsimp only
  rw [if_neg (by simp)]
  have : dropPlus (N.fmt x) = N.fmt x := by
    unfold dropPlus
    split
    · next e => exact absurd rfl (hN.head x _ _ e).1
    · rfl
  rw [this, hN.parse_fmt]

theorem readPoint_fmt {N : Doubles F} (hN : N.Lawful) {w r : List Char} (hw : Spaces w) (p : P3 F) (hr : Stop r) :
    readPoint N ⟨w ++ (N.fmt p.1 ++ ' ' :: (N.fmt p.2.1 ++ ' ' :: (N.fmt p.2.2 ++ r))), false, false⟩ = some p := by
  unfold readPoint
  rw [readDouble_fmt hN hw p.1 (stop_space _)]
  dsimp only
  rw [show (⟨' ' :: (N.fmt p.2.1 ++ ' ' :: (N.fmt p.2.2 ++ r)), (' ' :: (N.fmt p.2.1 ++ ' ' :: (N.fmt p.2.2 ++ r))).isEmpty, false⟩ : IS) = ⟨[' '] ++ (N.fmt p.2.1 ++ ' ' :: (N.fmt p.2.2 ++ r)), false, false⟩ from rfl,
    readDouble_fmt hN spaces_one p.2.1 (stop_space _)]
  dsimp only
  rw [show (⟨' ' :: (N.fmt p.2.2 ++ r), (' ' :: (N.fmt p.2.2 ++ r)).isEmpty, false⟩ : IS) = ⟨[' '] ++ (N.fmt p.2.2 ++ r), false, false⟩ from rfl,
    readDouble_fmt hN spaces_one p.2.2 hr]
  simp

/-! ## Insignificant lines -/

/-- A blank line, or a comment. -/
def Insignificant (l : List Char) : Prop := Spaces l ∨ ∃ w r, Spaces w ∧ l = w ++ '#' :: r

theorem expectEof_spaces {w : List Char} (hw : Spaces w) : (of w).expectEof = ⟨[], true, false⟩ := by
  unfold expectEof
  rw [if_neg (by simp [of])]
  dsimp only [of]
  have := dropWhile_all hw []
  rw [List.append_nil] at this
  rw [this]; rfl

theorem expectEof_tok {w : List Char} (hw : Spaces w) {c : Char} (hc : isSpace c = false) (r : List Char) : (⟨w ++ c :: r, false, false⟩ : IS).expectEof = ⟨c :: r, false, true⟩ := by
  unfold expectEof
  rw [if_neg (by simp)]
  dsimp only
  rw [dropWhile_all hw, List.dropWhile_cons, if_neg (by simp [hc])]

theorem optHashEof_insignificant {l : List Char} (h : Insignificant l) : (of l).optHashEof.fail = false := by
  unfold optHashEof
  rw [if_neg (by simp [of])]
  dsimp only
  rcases h with h | ⟨w, r, hw, rfl⟩
  · rw [expectEof_spaces h]; rfl
  · rw [show of (w ++ '#' :: r) = ⟨w ++ '#' :: r, false, false⟩ from rfl, expectEof_tok hw (by rfl)]
    rfl

theorem optHashEof_tok {w : List Char} (hw : Spaces w) {c : Char} (hc : isSpace c = false) (hh : c ≠ '#') (r : List Char) : (of (w ++ c :: r)).optHashEof = ⟨c :: r, false, true⟩ := by
  unfold optHashEof
  rw [if_neg (by simp [of])]
  dsimp only
  rw [show of (w ++ c :: r) = ⟨w ++ c :: r, false, false⟩ from rfl, expectEof_tok hw hc]
  rw [if_neg (by simp)]
  have : (IS.clear ⟨c :: r, false, true⟩).peek = (⟨c :: r, false, false⟩, some c) := rfl
  rw [this]
  split
  · next e => injection e with _ e; injection e with e; exact absurd e hh
  · next e => injection e with e _; rw [← e]; rfl

theorem line_cases (l : List Char) : Insignificant l ∨ ∃ w c r, Spaces w ∧ isSpace c = false ∧ c ≠ '#' ∧ l = w ++ c :: r := by
  have hl := List.takeWhile_append_dropWhile (p := isSpace) (l := l)
  have hw : Spaces (l.takeWhile isSpace) := takeWhile_prop isSpace l
  cases hd : l.dropWhile isSpace with
  | nil =>
    rw [hd, List.append_nil] at hl
    left; left; rw [← hl]; exact hw
  | cons c r =>
    rw [hd] at hl
    by_cases hc : c = '#'
    · left; right; subst hc; exact ⟨_, r, hw, hl.symm⟩
    · right; exact ⟨_, c, r, hw, dropWhile_head _ _ hd, hc, hl.symm⟩

/-! ## Fans -/

theorem addFaces_eq (t : Soup (P3 F) D) (dflt : D) (fs : List (Tri Nat)) : addFaces t dflt fs = ⟨t.points, t.faces ++ fs, t.data ++ List.replicate fs.length dflt⟩ := by
  induction fs generalizing t with
  | nil => simp [addFaces]
  | cons f fs ih =>
    unfold addFaces
    rw [ih]
    simp [Soup.addFace, List.replicate_succ]

end Kigumi.Text
