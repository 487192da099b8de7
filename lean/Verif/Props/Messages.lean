import Verif.Proofs.Messages
import Verif.Props.Arguments

/-!
# C111: what is printed about a text file that is refused
-/
namespace Kigumi.Props
open Kigumi Outcome
open Kigumi.Cli (World Name main Format Act readOrThrow)
open Kigumi.Geo (P3)
open Kigumi.Program
open Kigumi.IO (Host Numbers Byte Pt)
open Kigumi.Spec.Cli (HasFormat Means)
open Kigumi.Spec.Arguments (Taken StandsFor)
open Kigumi.Spec.Messages
open Kigumi.Text.Ply (LinesOf)
open Kigumi.Text (Said Fate quiet)
variable {F : Type}

/-! ## Proofs -/

/-- Whether lines are accepted, and what is printed about them. -/
def accepts (M : Text.Doubles F) (fmt : Format) (ls : List (List Char)) : Bool :=
  match fmt with
  | .kigumi => false
  | .obj => (Text.objLoop M () ls ⟨Soup.empty, 0⟩).1
  | .off => Text.offAccepts M () ⟨.signature, 0, 0, Soup.empty, 0⟩ ls
  | .ply => Text.plyAccepts M () ls
def texts (M : Text.Doubles F) (fmt : Format) (ls : List (List Char)) : Said :=
  match fmt with
  | .kigumi => quiet
  | .obj => Text.tellLoop (Text.objLine M ()) (Text.objTell M) ls ⟨Soup.empty, 0⟩
  | .off => Text.offTexts M () ⟨.signature, 0, 0, Soup.empty, 0⟩ ls
  | .ply => Text.plyTexts M () ls

theorem fate (M : Text.Doubles F) {fmt : Format} (hk : fmt ≠ .kigumi) (ls : List (List Char)) : Fate fmt (accepts M fmt) (texts M fmt) ls := by
  cases fmt with
  | kigumi => exact absurd rfl hk
  | obj => exact Text.obj_fate M () _ ls
  | off => exact Text.off_fate M () _ ls
  | ply => exact Text.ply_fate M () ls

theorem texts_of (M : Text.Doubles F) {fmt : Format} {t : List Char} {ls : List (List Char)} (h : LinesOf t ls) : textSays M fmt t = texts M fmt ls := by
  rw [← Text.Ply.lines_of h]
  cases fmt <;> rfl

theorem accepts_of (M : Text.Doubles F) {fmt : Format} {t : List Char} {ls : List (List Char)} (h : LinesOf t ls) : (readText M fmt t).1 = accepts M fmt ls := by
  rw [← Text.Ply.lines_of h]
  cases fmt with
  | kigumi => rfl
  | obj =>
    show (Text.readObj M () (Text.IS.of t) Soup.empty).1 = (Text.objLoop M () (Text.IS.of t).lines ⟨Soup.empty, 0⟩).1
    unfold Text.readObj
    rw [if_neg (show ¬ ((Text.IS.of t).fail = true) from Bool.false_ne_true)]
    rcases Text.objLoop M () (Text.IS.of t).lines ⟨Soup.empty, 0⟩ with ⟨b, a⟩
    cases b <;> rfl
  | off =>
    show (Text.readOff M () (Text.IS.of t) Soup.empty).1 = Text.offAccepts M () ⟨.signature, 0, 0, Soup.empty, 0⟩ (Text.IS.of t).lines
    unfold Text.readOff Text.offAccepts
    rw [if_neg (show ¬ ((Text.IS.of t).fail = true) from Bool.false_ne_true)]
    rcases Text.offLoop M () (Text.IS.of t).lines ⟨.signature, 0, 0, Soup.empty, 0⟩ with ⟨b, st, a⟩
    cases b <;> cases st <;> rfl
  | ply =>
    show (Text.readPly M () (Text.IS.of t) Soup.empty).1 = Text.plyAccepts M () (Text.IS.of t).lines
    unfold Text.readPly Text.plyAccepts
    rw [if_neg (show ¬ ((Text.IS.of t).fail = true) from Bool.false_ne_true)]
    rcases Text.plyHeader (Text.IS.of t).lines .signature [] with _ | ⟨els, ls⟩
    · rfl
    · dsimp only
      rcases Text.plyPlan els with _ | q
      · rfl
      · dsimp only
        rcases Text.plyLoop M () q ls (Text.advance (Text.number 0 els)) ⟨Soup.empty, 0⟩ with ⟨b, todo, a⟩
        cases b <;> cases todo <;> rfl

theorem taken_iff (M : Text.Doubles F) {fmt : Format} (hk : fmt ≠ .kigumi) (t : List Char) : (∃ ps fs, Taken M fmt t ps fs) ↔ (readText M fmt t).1 = true := by
  rcases taken_or M hk t with ⟨ps, fs, k, h1, h2⟩ | ⟨h1, s, k, h2⟩
  · exact ⟨fun _ => by rw [h2], fun _ => ⟨ps, fs, h1⟩⟩
  · exact ⟨fun h => absurd h h1, fun h => by rw [h2] at h; cases h⟩

/-! ## The property -/

/-- **C111.** For every text and each of the three text formats: either the text is in the grammar of the format, and the reader prints nothing; or it is not, and the reader prints one message. The message is about the whole file (it ends too early; or the header of a PLY file lacks an element
or a property that is needed); or it is about a line of the text, which it shows, and this line is the first one that is to blame: every text that starts with the lines up to it is refused with the same message, whatever follows, and about the lines before it there is nothing to say, except that
more of them are needed. -/
theorem C111_messages (M : Text.Doubles F) {fmt : Format} (hk : fmt ≠ .kigumi) (t : List Char) :
    ((∃ ps fs, Taken M fmt t ps fs) ∧ textSays M fmt t = ([], [])) ∨
    (¬ ∃ ps fs, Taken M fmt t ps fs) ∧ ((∃ m, AboutFile fmt m ∧ textSays M fmt t = printed false m) ∨
      ∃ pre l post out m, LinesOf t (pre ++ l :: post) ∧ AboutLine l fmt out m ∧ textSays M fmt t = printed out m ∧
        (∀ t' post', LinesOf t' (pre ++ l :: post') → (¬ ∃ ps fs, Taken M fmt t' ps fs) ∧ textSays M fmt t' = printed out m) ∧
        ∀ t', LinesOf t' pre → textSays M fmt t' = ([], []) ∨ textSays M fmt t' = printed false "unexpected end of file".toList) := by
  have hl := Text.Ply.linesOf t
  rcases fate M hk (Text.IS.of t).lines with ⟨h1, h2⟩ | ⟨h1, h2⟩
  · exact .inl ⟨(taken_iff M hk t).2 ((accepts_of M hl).trans h1), (texts_of M hl).trans h2⟩
  · refine .inr ⟨fun h => ?_, ?_⟩
    · rw [taken_iff M hk, accepts_of M hl, h1] at h; cases h
    · rcases h2 with ⟨m, h3, h4⟩ | ⟨pre, l, post, out, m, h3, h4, h5, h6⟩
      · exact .inl ⟨m, h3, (texts_of M hl).trans h4⟩
      · rw [h3] at hl
        refine .inr ⟨pre, l, post, out, m, hl, h4, (texts_of M hl).trans (h5 post).2, fun t' post' ht => ⟨fun h => ?_, (texts_of M ht).trans (h5 post').2⟩, fun t' ht => ?_⟩
        · rw [taken_iff M hk, accepts_of M ht, (h5 post').1] at h; cases h
        · rw [texts_of M ht]; exact h6

theorem about_line {l : List Char} {fmt : Format} {out : Bool} {m : List Char} (h : AboutLine l fmt out m) (hl : '\n' ∉ l) : m ≠ [] ∧ '\n' ∉ m ∧ (out = true → fmt = .off) := by
  have key : ∀ s : List Char, s ≠ [] ∧ '\n' ∉ s → s ++ l ≠ [] ∧ '\n' ∉ s ++ l := fun s hs =>
    ⟨fun e => hs.1 (List.append_eq_nil_iff.1 e).1, fun e => (List.mem_append.1 e).elim hs.2 hl⟩
  cases h with
  | objVertex => exact ⟨(key _ (by decide +kernel)).1, (key _ (by decide +kernel)).2, fun e => by cases e⟩
  | objFace => exact ⟨(key _ (by decide +kernel)).1, (key _ (by decide +kernel)).2, fun e => by cases e⟩
  | offHeader => exact ⟨(key _ (by decide +kernel)).1, (key _ (by decide +kernel)).2, fun _ => rfl⟩
  | offBinary => exact ⟨by decide +kernel, by decide +kernel, fun _ => rfl⟩
  | offVertex => exact ⟨(key _ (by decide +kernel)).1, (key _ (by decide +kernel)).2, fun _ => rfl⟩
  | offFace => exact ⟨(key _ (by decide +kernel)).1, (key _ (by decide +kernel)).2, fun _ => rfl⟩
  | offMore => exact ⟨(key _ (by decide +kernel)).1, (key _ (by decide +kernel)).2, fun _ => rfl⟩
  | plyHeader => exact ⟨(key _ (by decide +kernel)).1, (key _ (by decide +kernel)).2, fun e => by cases e⟩
  | plyVersion => exact ⟨by decide +kernel, by decide +kernel, fun e => by cases e⟩
  | plyVertex => exact ⟨(key _ (by decide +kernel)).1, (key _ (by decide +kernel)).2, fun e => by cases e⟩
  | plyFace => exact ⟨(key _ (by decide +kernel)).1, (key _ (by decide +kernel)).2, fun e => by cases e⟩
  | plyMore => exact ⟨(key _ (by decide +kernel)).1, (key _ (by decide +kernel)).2, fun e => by cases e⟩

theorem about_file {fmt : Format} {m : List Char} (h : AboutFile fmt m) : m ≠ [] ∧ '\n' ∉ m := by
  cases h <;> exact ⟨by decide +kernel, by decide +kernel⟩

/-- **One line.** What is printed about a text that is refused is one line, on one of the two outputs; on the standard output only for OFF files. -/
theorem C111_one_line (M : Text.Doubles F) {fmt : Format} (hk : fmt ≠ .kigumi) (t : List Char) (ht : ¬ ∃ ps fs, Taken M fmt t ps fs) :
    ∃ out m, m ≠ [] ∧ '\n' ∉ m ∧ textSays M fmt t = printed out m ∧ (out = true → fmt = .off) := by
  rcases C111_messages M hk t with ⟨h1, -⟩ | ⟨-, ⟨m, h1, h2⟩ | ⟨pre, l, post, out, m, h1, h2, h3, -⟩⟩
  · exact absurd h1 ht
  · exact ⟨false, m, (about_file h1).1, (about_file h1).2, h2, fun e => by cases e⟩
  · obtain ⟨k1, k2, k3⟩ := about_line h2 (h1.1 l (by simp))
    exact ⟨out, m, k1, k2, h3, k3⟩

/-- The readers of the program print what `textSays` says. -/
def Tells (M : Text.Doubles F) (E : Cli.Env Byte Pt Unit (Builder P3 Unit)) : Prop := ∀ fmt c, fmt ≠ .kigumi → E.complaint fmt c = textSays M fmt (chars c)

variable {N : Numbers} {M : Text.Doubles F} {bits : F → Nat} {E : Cli.Env Byte Pt Unit (Builder P3 Unit)}

/-- What a run leaves that refuses the argument `n`, about which a reader has printed `s`. -/
def Refused (w : World Byte) (s : List Char × List Char) (n : Name) : World Byte × Outcome Nat :=
  ({ w with out := w.out ++ s.1, err := w.err ++ s.2 ++ ("error: reading failed: ".toList ++ n ++ ['\n']) }, ok 1)

theorem readOrThrow_refused (hT : TextReaders N M bits E) (hM : Tells M E) {n : Name} {fmt : Format} {c : List Byte} (hk : fmt ≠ .kigumi) (hf : HasFormat n fmt) (w : World Byte) (hr : E.readable n = true) (hc : w.files n = some c)
    (ht : ¬ ∃ ps fs, Taken M fmt (chars c) ps fs) :
    ∃ m : String, m.toList = "reading failed: ".toList ++ n ∧ readOrThrow E n w = ({ w with out := w.out ++ (textSays M fmt (chars c)).1, err := w.err ++ (textSays M fmt (chars c)).2 }, exn m) := by
  have e := (C53_read E n w).2.2.2.1 fmt c hk (.file fmt hf) hr hc
  rw [hT fmt c hk, hM fmt c hk] at e
  rcases taken_or M hk (chars c) with ⟨ps, fs, k, h1, -⟩ | ⟨-, s, k, h2⟩
  · exact absurd ⟨ps, fs, h1⟩ ht
  · rw [h2] at e
    refine ⟨"reading failed: " ++ String.ofList n, by rw [String.toList_append]; exact congrArg _ String.toList_ofList, ?_⟩
    unfold Cli.readOrThrow Act.bind
    rw [e]
    rfl

/-- **The program** prints the message of the reader, then its own message with the name of the file, ends with status 1, and changes no file: for `convert`, for `defects`, for the first operand of `boolean`, and for the second one if the first one stands for a region. -/
theorem C111_program (hE : Library h N E) (hT : TextReaders N M bits E) (hM : Tells M E) (rest : List Name) (w : World Byte) {n : Name} {fmt : Format} {c : List Byte} (hk : fmt ≠ .kigumi) (hf : HasFormat n fmt) (hr : E.readable n = true) (hc : w.files n = some c)
    (ht : ¬ ∃ ps fs, Taken M fmt (chars c) ps fs) :
    (∀ o, E.parseInOut rest = ok (n, o) → main E ("convert".toList :: rest) w = Refused w (textSays M fmt (chars c)) n) ∧
    (E.parseIn rest = ok n → main E ("defects".toList :: rest) w = Refused w (textSays M fmt (chars c)) n) ∧
    ∀ o, E.parseBoolean rest = ok o → (o.first = n ∨ o.second = n ∧ ∃ a, StandsFor N M bits E.readable w.files o.first a) → main E ("boolean".toList :: rest) w = Refused w (textSays M fmt (chars c)) n := by
  obtain ⟨m, hm, e⟩ := readOrThrow_refused hT hM hk hf w hr hc ht
  have fin : ∀ (name : Name) (cmd : List Name → Act Byte Unit), (name, cmd) ∈ Cli.commands E →
      cmd rest w = ({ w with out := w.out ++ (textSays M fmt (chars c)).1, err := w.err ++ (textSays M fmt (chars c)).2 }, exn m) → main E (name :: rest) w = Refused w (textSays M fmt (chars c)) n := by
    intro name cmd h1 h2
    rw [C53_exception_reported E rest w _ m cmd name h1 h2, hm]
    rfl
  refine ⟨fun o ho => ?_, fun ho => ?_, fun o ho hn => ?_⟩
  · refine fin _ (Cli.convertCommand E) (by simp [Cli.commands]) ?_
    unfold Cli.convertCommand
    rw [ho]
    show ((readOrThrow E n).bind _) w = _
    unfold Act.bind
    rw [e]
  · refine fin _ (Cli.defectsCommand E) (by simp [Cli.commands]) ?_
    unfold Cli.defectsCommand
    rw [ho]
    show ((readOrThrow E n).bind _) w = _
    unfold Act.bind
    rw [e]
  · refine fin _ (Cli.booleanCommand E) (by simp [Cli.commands]) ?_
    unfold Cli.booleanCommand
    rw [ho]
    show ((readOrThrow E o.first).bind _) w = _
    rcases hn with rfl | ⟨rfl, a, ha⟩
    · unfold Act.bind
      rw [e]
    · have e1 := Cli.readOrThrow_ok.2 ⟨rfl, (C104_operand hE hT _ _ _).2 ha⟩
      unfold Act.bind
      rw [e1]
      dsimp only
      rw [e]

/-- Some environment is as this theorem expects. -/
def withTexts (M : Text.Doubles F) (E : Cli.Env Byte Pt Unit (Builder P3 Unit)) : Cli.Env Byte Pt Unit (Builder P3 Unit) := { E with complaint := fun fmt c => textSays M fmt (chars c) }

theorem C111_consistent (hE : Library h N E) (hT : TextReaders N M bits E) : Library h N (withTexts M E) ∧ TextReaders N M bits (withTexts M E) ∧ Tells M (withTexts M E) :=
  ⟨⟨hE.read, hE.write, hE.build, hE.eval, hE.exact⟩, hT, fun _ _ _ => rfl⟩

/-! ## Examples -/

namespace Text111

/-- A face with too few vertices: the message is on the standard output. -/
def badFace : List Char := "OFF\n# three points\n3 1 0\n0 0 0\n1 0 0\n0 1 0\n3 0 1\n".toList

theorem badFace_says : textSays Text.natDoubles .off badFace = printed true "invalid face line: 3 0 1".toList := by decide +kernel

theorem badFace_refused : ¬ ∃ ps fs, Taken Text.natDoubles .off badFace ps fs := by
  rw [taken_iff _ (by decide)]
  decide +kernel

/-- `kigumi defects` prints it where the list of defects is expected, and more on the standard error output. -/
example (hE : Library h N E) {bits : Nat → Nat} (hT : TextReaders N Text.natDoubles bits E) (hM : Tells Text.natDoubles E) (w : World Byte) (hr : E.readable "a.off".toList = true) (hc : w.files "a.off".toList = some (bytes badFace)) (hp : E.parseIn ["a.off".toList] = ok "a.off".toList) :
    main E ["defects".toList, "a.off".toList] w = ({ w with out := w.out ++ "invalid face line: 3 0 1\n".toList, err := w.err ++ "error: reading failed: a.off\n".toList }, ok 1) := by
  have hb : chars (bytes badFace) = badFace := by decide +kernel
  rw [(C111_program hE hT hM ["a.off".toList] w (fmt := .off) (by decide) ⟨"a".toList, by decide⟩ hr hc (by rw [hb]; exact badFace_refused)).2.1 hp, hb, badFace_says]
  unfold Refused
  have e1 : (printed true "invalid face line: 3 0 1".toList).1 = "invalid face line: 3 0 1\n".toList := by decide +kernel
  have e2 : (printed true "invalid face line: 3 0 1".toList).2 = [] := by decide +kernel
  have e3 : "error: reading failed: ".toList ++ "a.off".toList ++ ['\n'] = "error: reading failed: a.off\n".toList := by decide +kernel
  rw [e1, e2, e3, List.append_nil]

/-- A whole program, with an environment that exists. -/
example (h : Host) (w : World Byte) (hc : w.files "a.off".toList = some (bytes badFace)) :
    main (withTexts Text.natDoubles (Text104.converter h "a.off".toList "b.obj".toList)) ["convert".toList] w = Refused w (printed true "invalid face line: 3 0 1".toList) "a.off".toList := by
  obtain ⟨hE, hT⟩ := Text104.converter_is h "a.off".toList "b.obj".toList
  obtain ⟨hE, hT, hM⟩ := C111_consistent hE hT
  have hb : chars (bytes badFace) = badFace := by decide +kernel
  rw [(C111_program hE hT hM [] w (fmt := .off) (by decide) ⟨"a".toList, by decide⟩ rfl hc (by rw [hb]; exact badFace_refused)).1 "b.obj".toList rfl, hb, badFace_says]

/-- Messages of each kind. -/
example : textSays Text.natDoubles .off "OFF\n3 1 0\n0 0 0\n1 0\n".toList = printed false "invalid vertex line: 1 0".toList := by decide +kernel
example : textSays Text.natDoubles .off "OFF BINARY\n".toList = printed false "binary OFF is not supported".toList := by decide +kernel
example : textSays Text.natDoubles .off "OFF\n0 0 0\n\n1".toList = printed true "unexpected line: 1".toList := by decide +kernel
example : textSays Text.natDoubles .off "OFF\n3 1 0\n0 0 0\n".toList = printed false "unexpected end of file".toList := by decide +kernel
example : textSays Text.natDoubles .obj "v 1 2 3\nf 1 2 0\nv\n".toList = printed false "invalid face line: f 1 2 0".toList := by decide +kernel
example : textSays Text.natDoubles .obj "v 1 2\n".toList = printed false "invalid vertex line: v 1 2".toList := by decide +kernel
example : textSays Text.natDoubles .ply "ply\nformat ascii 2.0\n".toList = printed false "unsupported PLY version".toList := by decide +kernel
example : textSays Text.natDoubles .ply "ply\nformat ascii 1.0\nelement vertex 0\nproperty float x\nproperty float y\nend_header\n".toList = printed false "property z not found in element vertex".toList := by decide +kernel
example : textSays Text.natDoubles .ply "ply\nformat ascii 1.0\nproperty float x\n".toList = printed false "invalid header line: property float x".toList := by decide +kernel
/-- Nothing is printed about a file that is taken, although a face of it has two vertices. -/
example : textSays Text.natDoubles .obj "v 1 2 3\nf 1 1\ng\n".toList = ([], []) := by decide +kernel

end Text111

end Kigumi.Props
