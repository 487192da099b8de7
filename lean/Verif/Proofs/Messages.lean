import Verif.Model.Messages
import Verif.Spec.Messages
import Verif.Proofs.TextPlyRead

/-!
# The messages of the readers
-/
namespace Kigumi.Text
open Kigumi IS
open Kigumi.Spec.Messages
open Kigumi.Cli (Format)
variable {F D A : Type}

theorem also_quiet (x : Said) : also x quiet = x := by
  unfold also quiet; simp

theorem quiet_also (x : Said) : also quiet x = x := rfl

/-- The loop that belongs to `tellLoop`. -/
def runLoop (step : List Char → A → Bool × A) : List (List Char) → A → Bool × A
  | [], a => (true, a)
  | l :: ls, a => if (step l a).1 then runLoop step ls (step l a).2 else (false, (step l a).2)

theorem tellLoop_cases {step : List Char → A → Bool × A} {tell : List Char → A → Said} (hq : ∀ l a, (step l a).1 = true → tell l a = quiet) (ls : List (List Char)) (a : A) :
    ((runLoop step ls a).1 = true ∧ tellLoop step tell ls a = quiet) ∨
    ∃ pre l post a', ls = pre ++ l :: post ∧ runLoop step pre a = (true, a') ∧ tellLoop step tell pre a = quiet ∧ (step l a').1 = false ∧
      ∀ post', tellLoop step tell (pre ++ l :: post') a = tell l a' ∧ (runLoop step (pre ++ l :: post') a).1 = false := by
  induction ls generalizing a with
  | nil => exact .inl ⟨rfl, rfl⟩
  | cons x ls ih =>
    cases hx : (step x a).1 with
    | false =>
      refine .inr ⟨[], x, ls, a, rfl, rfl, rfl, hx, fun post' => ⟨?_, ?_⟩⟩
      · show also (tell x a) _ = _
        rw [hx]; exact also_quiet _
      · show (if (step x a).1 then _ else _ : Bool × A).1 = false
        rw [hx]; rfl
    | true =>
      have e1 : ∀ ls, tellLoop step tell (x :: ls) a = tellLoop step tell ls (step x a).2 := by
        intro ls
        show also (tell x a) (if (step x a).1 then _ else _) = _
        rw [hq x a hx, hx]; rfl
      have e2 : ∀ ls, runLoop step (x :: ls) a = runLoop step ls (step x a).2 := by
        intro ls
        show (if (step x a).1 then _ else _ : Bool × A) = _
        rw [hx]; rfl
      rw [e1, e2]
      rcases ih (step x a).2 with h | ⟨pre, l, post, a', rfl, h2, h3, h4, h5⟩
      · exact .inl h
      · refine .inr ⟨x :: pre, l, post, a', rfl, by rw [e2]; exact h2, by rw [e1]; exact h3, h4, fun post' => ?_⟩
        rw [List.cons_append, e1, e2]
        exact h5 post'

/-- What becomes of a file with the lines `ls`. -/
def Fate (fmt : Format) (acc : List (List Char) → Bool) (tells : List (List Char) → Said) (ls : List (List Char)) : Prop :=
  (acc ls = true ∧ tells ls = quiet) ∨
  acc ls = false ∧ ((∃ m, AboutFile fmt m ∧ tells ls = printed false m) ∨
    ∃ pre l post out m, ls = pre ++ l :: post ∧ AboutLine l fmt out m ∧ (∀ post', acc (pre ++ l :: post') = false ∧ tells (pre ++ l :: post') = printed out m) ∧
      (tells pre = quiet ∨ tells pre = printed false "unexpected end of file".toList))

/-! ## OBJ -/

theorem objLoop_run (N : Doubles F) (dflt : D) (ls : List (List Char)) (a : Acc F D) : objLoop N dflt ls a = runLoop (objLine N dflt) ls a := by
  induction ls generalizing a with
  | nil => rfl
  | cons l ls ih =>
    unfold objLoop runLoop
    rw [← ih]

theorem objTell_spec (N : Doubles F) (dflt : D) (l : List Char) (a : Acc F D) :
    ((objLine N dflt l a).1 = true ∧ objTell N l a = quiet) ∨ (objLine N dflt l a).1 = false ∧ ∃ out m, AboutLine l .obj out m ∧ objTell N l a = printed out m := by
  unfold objLine objTell
  dsimp only
  split
  · exact .inl ⟨rfl, rfl⟩
  · split
    · cases readPoint N (of l).optHashEof.clear.readStr.1 with
      | none => exact .inr ⟨rfl, _, _, .objVertex, rfl⟩
      | some p => exact .inl ⟨rfl, rfl⟩
    · split
      · split
        · exact .inl ⟨rfl, rfl⟩
        · exact .inr ⟨rfl, _, _, .objFace, rfl⟩
      · exact .inl ⟨rfl, rfl⟩

theorem obj_fate (N : Doubles F) (dflt : D) (a : Acc F D) (ls : List (List Char)) :
    Fate .obj (fun ls => (objLoop N dflt ls a).1) (fun ls => tellLoop (objLine N dflt) (objTell N) ls a) ls := by
  have hq : ∀ l (a : Acc F D), (objLine N dflt l a).1 = true → objTell N l a = quiet := by
    intro l a h
    rcases objTell_spec N dflt l a with h1 | h1
    · exact h1.2
    · rw [h] at h1; cases h1.1
  unfold Fate
  simp only [objLoop_run]
  rcases tellLoop_cases hq ls a with h | ⟨pre, l, post, a', rfl, h2, h3, h4, h5⟩
  · exact .inl h
  · rcases objTell_spec N dflt l a' with h6 | ⟨-, out, m, h6, h7⟩
    · rw [h4] at h6; cases h6.1
    · refine .inr ⟨(h5 post).2, .inr ⟨pre, l, post, out, m, rfl, h6, fun post' => ⟨(h5 post').2, (h5 post').1.trans h7⟩, .inl h3⟩⟩

/-! ## OFF -/

theorem offLoop_run (N : Doubles F) (dflt : D) (ls : List (List Char)) (a : Off F D) : offLoop N dflt ls a = runLoop (offLine N dflt) ls a := by
  induction ls generalizing a with
  | nil => rfl
  | cons l ls ih =>
    unfold offLoop runLoop
    rw [← ih]

theorem offTell_spec (N : Doubles F) (dflt : D) (l : List Char) (a : Off F D) :
    ((offLine N dflt l a).1 = true ∧ offTell N l a = quiet) ∨ (offLine N dflt l a).1 = false ∧ ∃ out m, AboutLine l .off out m ∧ offTell N l a = printed out m := by
  rcases a with ⟨st, nv, nf, soup, n⟩
  unfold offLine offTell
  cases st <;> dsimp only <;> split
  · exact .inl ⟨rfl, rfl⟩
  · split
    · exact .inr ⟨rfl, _, _, .offHeader, rfl⟩
    · split
      · exact .inr ⟨rfl, _, _, .offBinary, rfl⟩
      · exact .inl ⟨rfl, rfl⟩
  · exact .inl ⟨rfl, rfl⟩
  · split
    · exact .inr ⟨rfl, _, _, .offHeader, rfl⟩
    · exact .inl ⟨rfl, rfl⟩
  · exact .inl ⟨rfl, rfl⟩
  · cases readPoint N (of l).optHashEof.clear with
    | none => exact .inr ⟨rfl, _, _, .offVertex, rfl⟩
    | some p => exact .inl ⟨rfl, rfl⟩
  · exact .inl ⟨rfl, rfl⟩
  · split
    · exact .inr ⟨rfl, _, _, .offFace, rfl⟩
    · exact .inl ⟨rfl, rfl⟩
  · exact .inl ⟨rfl, rfl⟩
  · exact .inr ⟨rfl, _, _, .offMore, rfl⟩

/-- Whether the lines of an OFF file are accepted. -/
def offAccepts (N : Doubles F) (dflt : D) (a : Off F D) (ls : List (List Char)) : Bool := (offLoop N dflt ls a).1 && decide ((offLoop N dflt ls a).2.state = .done)
def offTexts (N : Doubles F) (dflt : D) (a : Off F D) (ls : List (List Char)) : Said :=
  also (tellLoop (offLine N dflt) (offTell N) ls a) (if (offLoop N dflt ls a).1 && decide ((offLoop N dflt ls a).2.state ≠ .done) then toErr "unexpected end of file".toList else quiet)

theorem off_fate (N : Doubles F) (dflt : D) (a : Off F D) (ls : List (List Char)) : Fate .off (offAccepts N dflt a) (offTexts N dflt a) ls := by
  have hq : ∀ l (a : Off F D), (offLine N dflt l a).1 = true → offTell N l a = quiet := by
    intro l a h
    rcases offTell_spec N dflt l a with h1 | h1
    · exact h1.2
    · rw [h] at h1; cases h1.1
  unfold Fate offAccepts offTexts
  simp only [offLoop_run]
  rcases tellLoop_cases hq ls a with ⟨h1, h2⟩ | ⟨pre, l, post, a', rfl, h2, h3, h4, h5⟩
  · by_cases hd : (runLoop (offLine N dflt) ls a).2.state = .done
    · exact .inl ⟨by simp [h1, hd], by simp [h1, h2, hd, quiet_also]⟩
    · exact .inr ⟨by simp [h1, hd], .inl ⟨_, .offEnd, by simp [h1, h2, hd, quiet_also, toErr, printed]⟩⟩
  · rcases offTell_spec N dflt l a' with h6 | ⟨-, out, m, h6, h7⟩
    · rw [h4] at h6; cases h6.1
    · refine .inr ⟨by simp [(h5 post).2], .inr ⟨pre, l, post, out, m, rfl, h6, fun post' => ⟨by simp [(h5 post').2], ?_⟩, ?_⟩⟩
      · simp [(h5 post').1, (h5 post').2, also_quiet, h7]
      · by_cases hd : a'.state = .done
        · left; simp [h2, h3, hd, quiet_also]
        · right; simp [h2, h3, hd, quiet_also, toErr, printed]

/-! ## PLY -/

/-- A result and what is printed: nothing if there is one. -/
def Two {B : Type} (G : Said → Prop) (x : Option B) (t : Said) : Prop := ((∃ y, x = some y) ∧ t = quiet) ∨ x = none ∧ G t

theorem two_ite {B : Type} {G : Said → Prop} {p : Prop} [Decidable p] {x y : Option B} {t u : Said} (h1 : Two G x t) (h2 : Two G y u) : Two G (if p then x else y) (if p then t else u) := by
  by_cases hp : p
  · rw [if_pos hp, if_pos hp]; exact h1
  · rw [if_neg hp, if_neg hp]; exact h2

theorem plyHeaderTell_spec (l : List Char) (st : PlyState) (els : List Elem) :
    ((∃ x, plyHeaderLine l st els = some x) ∧ plyHeaderTell l st els = quiet) ∨ plyHeaderLine l st els = none ∧ ∃ out m, AboutLine l .ply out m ∧ plyHeaderTell l st els = printed out m := by
  let G : Said → Prop := fun t => ∃ out m, AboutLine l .ply out m ∧ t = printed out m
  have bad : Two G (none : Option (PlyState × List Elem)) (toErr ("invalid header line: ".toList ++ l)) := .inr ⟨rfl, _, _, .plyHeader, rfl⟩
  have ver : Two G (none : Option (PlyState × List Elem)) (toErr "unsupported PLY version".toList) := .inr ⟨rfl, _, _, .plyVersion, rfl⟩
  have good : ∀ x : PlyState × List Elem, Two G (some x) quiet := fun x => .inl ⟨⟨x, rfl⟩, rfl⟩
  show Two G (plyHeaderLine l st els) (plyHeaderTell l st els)
  unfold plyHeaderLine plyHeaderTell
  refine two_ite (good _) (two_ite (good _) ?_)
  cases st with
  | signature => exact two_ite bad (two_ite bad (good _))
  | version => exact two_ite bad (two_ite ver (good _))
  | elements =>
    exact two_ite (two_ite bad (good _)) (two_ite (two_ite bad (two_ite bad (two_ite (two_ite bad (good _)) (two_ite bad (good _))))) (two_ite (good _) bad))
  | body => exact good _

/-- The header is complete; or the file ends before; or a line is refused. -/
theorem plyHeader_cases (ls : List (List Char)) (st : PlyState) (els : List Elem) :
    (∃ hdr els' rest, ls = hdr ++ rest ∧ ∀ rest', plyHeader (hdr ++ rest') st els = some (els', rest') ∧ plyHeaderSays (hdr ++ rest') st els = quiet) ∨
    (plyHeader ls st els = none ∧ plyHeaderSays ls st els = toErr "unexpected end of file".toList) ∨
    ∃ pre l post out m, ls = pre ++ l :: post ∧ AboutLine l .ply out m ∧ (plyHeader pre st els = none ∧ plyHeaderSays pre st els = toErr "unexpected end of file".toList) ∧
      ∀ post', plyHeader (pre ++ l :: post') st els = none ∧ plyHeaderSays (pre ++ l :: post') st els = printed out m := by
  induction ls generalizing st els with
  | nil => exact .inr (.inl ⟨rfl, rfl⟩)
  | cons x ls ih =>
    rcases plyHeaderTell_spec x st els with ⟨⟨⟨st', els'⟩, h1⟩, h2⟩ | ⟨h1, out, m, h2, h3⟩
    · have e1 : ∀ ls, plyHeader (x :: ls) st els = if st' = .body then some (els', ls) else plyHeader ls st' els' := by
        intro ls; rw [plyHeader, h1]
      have e2 : ∀ ls, plyHeaderSays (x :: ls) st els = if st' = .body then quiet else plyHeaderSays ls st' els' := by
        intro ls; rw [plyHeaderSays, h1, h2]; rfl
      by_cases hb : st' = .body
      · exact .inl ⟨[x], els', ls, rfl, fun rest' => ⟨by rw [List.singleton_append, e1, if_pos hb], by rw [List.singleton_append, e2, if_pos hb]⟩⟩
      · simp only [if_neg hb] at e1 e2
        rcases ih st' els' with ⟨hdr, els'', rest, rfl, h4⟩ | h4 | ⟨pre, l, post, out, m, rfl, h4, h5, h6⟩
        · exact .inl ⟨x :: hdr, els'', rest, rfl, fun rest' => by rw [List.cons_append, e1, e2]; exact h4 rest'⟩
        · exact .inr (.inl (by rw [e1, e2]; exact h4))
        · exact .inr (.inr ⟨x :: pre, l, post, out, m, rfl, h4, by rw [e1, e2]; exact h5, fun post' => by rw [List.cons_append, e1, e2]; exact h6 post'⟩)
    · refine .inr (.inr ⟨[], x, ls, out, m, rfl, h2, ⟨rfl, rfl⟩, fun post' => ⟨?_, ?_⟩⟩)
      · rw [List.nil_append, plyHeader, h1]
      · rw [List.nil_append, plyHeaderSays, h1, h3]; exact also_quiet _

theorem findElement_some {els : List Elem} {name : List Char} {i : Nat} (h : findElement els name = some i) : ∃ e, els[i]? = some e ∧ e.name = name := by
  unfold findElement at h
  rw [List.findIdx?_eq_some_iff_getElem] at h
  obtain ⟨hi, h1, -⟩ := h
  exact ⟨els[i], List.getElem?_eq_getElem hi, by simpa using h1⟩

theorem plyPlanSays_spec (els : List Elem) : ((∃ q, plyPlan els = some q) ∧ plyPlanSays els = quiet) ∨ plyPlan els = none ∧ ∃ m, AboutFile .ply m ∧ plyPlanSays els = printed false m := by
  unfold plyPlan plyPlanSays
  cases h1 : findElement els "vertex".toList with
  | none => exact .inr ⟨rfl, _, .plyVertices, by show noElement "vertex".toList = _; decide +kernel⟩
  | some ve =>
    obtain ⟨v, h2, h3⟩ := findElement_some h1
    simp only [Option.bind_some, h2]
    cases h4 : findProperty v ["x".toList] false with
    | none => exact .inr ⟨rfl, _, .plyX, by rw [if_pos rfl]; unfold noProperty; rw [h3]; decide +kernel⟩
    | some x =>
      rw [if_neg (by simp)]
      cases h5 : findProperty v ["y".toList] false with
      | none => exact .inr ⟨rfl, _, .plyY, by rw [if_pos rfl]; unfold noProperty; rw [h3]; decide +kernel⟩
      | some y =>
        rw [if_neg (by simp)]
        cases h6 : findProperty v ["z".toList] false with
        | none => exact .inr ⟨rfl, _, .plyZ, by rw [if_pos rfl]; unfold noProperty; rw [h3]; decide +kernel⟩
        | some z =>
          rw [if_neg (by simp)]
          cases h7 : findElement els "face".toList with
          | none => exact .inr ⟨rfl, _, .plyFaces, by show noElement "face".toList = _; decide +kernel⟩
          | some fe =>
            obtain ⟨f, h8, h9⟩ := findElement_some h7
            simp only [Option.bind_some, h8]
            cases h10 : findProperty f ["vertex_index".toList, "vertex_indices".toList] true with
            | none => exact .inr ⟨rfl, _, .plyIndices, by rw [if_pos rfl]; unfold noProperty; rw [h9]; decide +kernel⟩
            | some vi => exact .inl ⟨⟨_, rfl⟩, by rw [if_neg (by simp)]⟩

theorem plyLoop_run (N : Doubles F) (dflt : D) (q : PlyPlan) (ls : List (List Char)) (a : List (Nat × Elem) × Acc F D) : plyLoop N dflt q ls a.1 a.2 = runLoop (plyStep N dflt q) ls a := by
  induction ls generalizing a with
  | nil => rfl
  | cons l ls ih =>
    unfold plyLoop runLoop
    show _ = if (plyLine N dflt q l a.1 a.2).1 then runLoop (plyStep N dflt q) ls (plyLine N dflt q l a.1 a.2).2 else (false, (plyLine N dflt q l a.1 a.2).2)
    rw [← ih]

theorem plyTell_spec (N : Doubles F) (dflt : D) (q : PlyPlan) (l : List Char) (a : List (Nat × Elem) × Acc F D) :
    ((plyStep N dflt q l a).1 = true ∧ plyTell N q l a = quiet) ∨ (plyStep N dflt q l a).1 = false ∧ ∃ out m, AboutLine l .ply out m ∧ plyTell N q l a = printed out m := by
  obtain ⟨todo, a⟩ := a
  unfold plyStep plyLine plyTell
  rcases todo with _ | ⟨⟨i, e⟩, es⟩
  · exact .inr ⟨rfl, _, _, .plyMore, rfl⟩
  · dsimp only
    split
    · split
      · exact .inr ⟨rfl, _, _, .plyVertex, rfl⟩
      · exact .inl ⟨rfl, rfl⟩
    · split
      · split
        · exact .inr ⟨rfl, _, _, .plyFace, rfl⟩
        · exact .inl ⟨rfl, rfl⟩
      · exact .inl ⟨rfl, rfl⟩

/-- Whether the lines of a PLY file are accepted, and what is printed. -/
def plyAccepts (N : Doubles F) (dflt : D) (ls : List (List Char)) : Bool :=
  match plyHeader ls .signature [] with
  | none => false
  | some (els, ls) => match plyPlan els with
    | none => false
    | some q => (plyLoop N dflt q ls (advance (number 0 els)) ⟨Soup.empty, 0⟩).1 && decide ((plyLoop N dflt q ls (advance (number 0 els)) ⟨Soup.empty, 0⟩).2.1 = [])
def plyTexts (N : Doubles F) (dflt : D) (ls : List (List Char)) : Said :=
  also (plyHeaderSays ls .signature []) (match plyHeader ls .signature [] with
    | none => quiet
    | some (els, ls) => also (plyPlanSays els) (match plyPlan els with
      | none => quiet
      | some q =>
        let a : List (Nat × Elem) × Acc F D := (advance (number 0 els), ⟨Soup.empty, 0⟩)
        also (tellLoop (plyStep N dflt q) (plyTell N q) ls a)
          (if (plyLoop N dflt q ls a.1 a.2).1 && decide ((plyLoop N dflt q ls a.1 a.2).2.1 ≠ []) then toErr "unexpected end of file".toList else quiet)))

theorem ply_fate (N : Doubles F) (dflt : D) (ls : List (List Char)) : Fate .ply (plyAccepts N dflt) (plyTexts N dflt) ls := by
  unfold Fate
  rcases plyHeader_cases ls .signature [] with ⟨hdr, els, rest, rfl, h1⟩ | ⟨h1, h2⟩ | ⟨pre, l, post, out, m, rfl, h2, ⟨h3, h4⟩, h5⟩
  · rcases plyPlanSays_spec els with ⟨⟨q, h2⟩, h3⟩ | ⟨h2, m, h3, h4⟩
    · have hq : ∀ l (a : List (Nat × Elem) × Acc F D), (plyStep N dflt q l a).1 = true → plyTell N q l a = quiet := by
        intro l a h
        rcases plyTell_spec N dflt q l a with h1 | h1
        · exact h1.2
        · rw [h] at h1; cases h1.1
      have e1 : ∀ rest, plyAccepts N dflt (hdr ++ rest) = ((runLoop (plyStep N dflt q) rest (advance (number 0 els), ⟨Soup.empty, 0⟩)).1 && decide ((runLoop (plyStep N dflt q) rest (advance (number 0 els), ⟨Soup.empty, 0⟩)).2.1 = [])) := by
        intro rest
        unfold plyAccepts
        rw [(h1 rest).1]
        dsimp only
        rw [h2]
        dsimp only
        rw [← plyLoop_run]
      have e2 : ∀ rest, plyTexts N dflt (hdr ++ rest) = also (tellLoop (plyStep N dflt q) (plyTell N q) rest (advance (number 0 els), ⟨Soup.empty, 0⟩))
          (if (runLoop (plyStep N dflt q) rest (advance (number 0 els), (⟨Soup.empty, 0⟩ : Acc F D))).1 && decide ((runLoop (plyStep N dflt q) rest (advance (number 0 els), (⟨Soup.empty, 0⟩ : Acc F D))).2.1 ≠ []) then toErr "unexpected end of file".toList else quiet) := by
        intro rest
        unfold plyTexts
        rw [(h1 rest).1, (h1 rest).2]
        dsimp only
        rw [h2, h3, ← plyLoop_run]
        rfl
      rcases tellLoop_cases hq rest (advance (number 0 els), (⟨Soup.empty, 0⟩ : Acc F D)) with ⟨g1, g2⟩ | ⟨pre, l, post, a', rfl, g2, g3, g4, g5⟩
      · rw [e1, e2]
        by_cases hd : (runLoop (plyStep N dflt q) rest (advance (number 0 els), (⟨Soup.empty, 0⟩ : Acc F D))).2.1 = []
        · exact .inl ⟨by simp [g1, hd], by simp [g1, g2, hd, quiet_also]⟩
        · exact .inr ⟨by simp [g1, hd], .inl ⟨_, .plyEnd, by simp [g1, g2, hd, quiet_also, toErr, printed]⟩⟩
      · rcases plyTell_spec N dflt q l a' with h6 | ⟨-, out, m, h6, h7⟩
        · rw [g4] at h6; cases h6.1
        · refine .inr ⟨by rw [e1]; simp [(g5 post).2], .inr ⟨hdr ++ pre, l, post, out, m, (List.append_assoc ..).symm, h6, fun post' => ?_, ?_⟩⟩
          · rw [List.append_assoc, e1, e2]
            exact ⟨by simp [(g5 post').2], by simp [(g5 post').1, (g5 post').2, also_quiet, h7]⟩
          · rw [e2]
            by_cases hd : a'.1 = []
            · left; simp [g2, g3, hd, quiet_also]
            · right; simp [g2, g3, hd, quiet_also, toErr, printed]
    · right
      have e1 : plyAccepts N dflt (hdr ++ rest) = false := by
        unfold plyAccepts
        rw [(h1 rest).1]
        dsimp only
        rw [h2]
      have e2 : plyTexts N dflt (hdr ++ rest) = plyPlanSays els := by
        unfold plyTexts
        rw [(h1 rest).1, (h1 rest).2]
        dsimp only
        rw [h2]
        exact also_quiet _
      exact ⟨e1, .inl ⟨m, h3, e2.trans h4⟩⟩
  · right
    refine ⟨by unfold plyAccepts; rw [h1], .inl ⟨_, .plyEnd, ?_⟩⟩
    unfold plyTexts
    rw [h1, h2]
    exact also_quiet _
  · right
    refine ⟨by unfold plyAccepts; rw [(h5 post).1], .inr ⟨pre, l, post, out, m, rfl, h2, fun post' => ⟨by unfold plyAccepts; rw [(h5 post').1], ?_⟩, .inr ?_⟩⟩
    · unfold plyTexts
      rw [(h5 post').1, (h5 post').2]
      exact also_quiet _
    · unfold plyTexts
      rw [h3, h4]
      exact also_quiet _

end Kigumi.Text
